import Verif.Model.Borrow

/-!
# The laws of the aliasing rules

`Laws R` collects what `replace_range` and `as_mut` need from a set of rules.  It is proved here for
Stacked Borrows and for Tree Borrows.
-/

namespace Verif.Borrow

/-- How far a mutable reference or pointer has been used.
* `new`: a `&mut` that has not been written through
* `raw`: a raw pointer that has not been written through
* `used`: anything that may be written through -/
inductive Kind where
  | new | raw | used
deriving DecidableEq

/-- A mutable reference in use. -/
structure Ref where
  tag : Tag
  kind : Kind
  protect : Bool

def Ref.use (r : Ref) : Ref := { r with kind := .used }

structure Laws (R : Rules) where
  /-- All tags are below. -/
  Below : Tag → R.St → Prop
  /-- The mutable references in use, newest first, all made from `root`. -/
  Main : (root : Tag) → List Ref → R.St → Prop
  /-- Reading through the tag preserves the property, and so does forgetting about references that
  were made from it. -/
  Stable : Tag → (R.St → Prop) → Prop
  /-- On top of a state with the property `B`, preserved by reading through `b`, the tags `T` may be
  read through; at most the tags `P` are protected. -/
  Side : (b : Tag) → (B : R.St → Prop) → (T P : List Tag) → R.St → Prop

  below_mono {n m st} : Below n st → n ≤ m → Below m st
  main_enter {root n st} (p : Bool) : (R.write root st).isSome → Below n st →
    ∃ st', R.unique root n p st = some st' ∧ Main root [⟨n, .new, p⟩] st' ∧ Below (n + 1) st'
  main_write {root r c n st} : Main root (r :: c) st → Below n st →
    ∃ st', R.write r.tag st = some st' ∧ Main root ((r :: c).map Ref.use) st' ∧ Below n st'
  main_read {root r c n st} : Main root (r :: c) st → Below n st →
    ∃ st', R.read r.tag st = some st' ∧ Main root (r :: c) st' ∧ Below n st'
  main_unique {root r c n st} (p : Bool) : Main root (r :: c) st → Below n st →
    ∃ st', R.unique r.tag n p st = some st' ∧ Main root (⟨n, .new, p⟩ :: r :: c) st' ∧
      Below (n + 1) st'
  main_raw {root t c n st} : Main root (⟨t, .new, true⟩ :: c) st → Below n st →
    ∃ st' st'', R.rawMut t n st = some st' ∧ R.release t st' = some st'' ∧
      Main root (⟨R.rawTag t n, .raw, false⟩ :: c) st'' ∧ Below (n + 1) st''
  main_two {root r c n st} : Main root (r :: c) st → Below n st →
    ∃ st', R.twoPhase r.tag n st = some st' ∧ Main root (⟨n, .raw, false⟩ :: r :: c) st' ∧
      Below (n + 1) st'
  main_two_root {root n st} : (R.write root st).isSome → Below n st →
    ∃ st', R.twoPhase root n st = some st' ∧ Main root [⟨n, .raw, false⟩] st' ∧ Below (n + 1) st'
  /-- A raw pointer made from `t`, and a `&mut` made from the pointer, before `t` is given up. -/
  main_raw_unique {root t r c n st} : Main root (⟨t, .new, true⟩ :: r :: c) st → Below n st →
    ∃ st₁, R.rawMut t n st = some st₁ ∧ Below (n + 1) st₁ ∧
      (∃ st₂, R.release t st₁ = some st₂ ∧ Main root (r :: c) st₂ ∧ Below (n + 1) st₂) ∧
      ∃ st₂ st₃, R.unique (R.rawTag t n) (n + 1) false st₁ = some st₂ ∧ Below (n + 2) st₂ ∧
        R.release t st₂ = some st₃ ∧ Main root (⟨n + 1, .new, false⟩ :: r :: c) st₃ ∧ Below (n + 2) st₃
  main_release {root t k c n st} : Main root (⟨t, k, true⟩ :: c) st → Below n st →
    ∃ st', R.release t st = some st' ∧ Main root (⟨t, .used, false⟩ :: c.map Ref.use) st' ∧ Below n st'
  main_release_new {root t c n st} : Main root (⟨t, .new, true⟩ :: c) st → Below n st →
    ∃ st', R.release t st = some st' ∧ Main root (⟨t, .new, false⟩ :: c) st' ∧ Below n st'
  main_release_under {root u t c n st} :
    Main root (⟨u, .new, false⟩ :: ⟨t, .new, true⟩ :: c) st → Below n st →
    ∃ st', R.release t st = some st' ∧
      Main root (⟨u, .new, false⟩ :: ⟨t, .new, false⟩ :: c) st' ∧ Below n st'
  main_hide {root u k t r c st} : Main root (u :: ⟨t, k, false⟩ :: r :: c) st →
    k ≠ .used → Main root (u :: r :: c) st
  main_pop {root r r' c st} : Main root (r :: r' :: c) st → r.protect = false →
    Main root (r' :: c) st
  main_relax {root r c st} : Main root (r :: c) st → Main root ((r :: c).map Ref.use) st
  main_root {root r st} : Main root [r] st → r.protect = false → (R.write root st).isSome
  stable_main {root r c} : Stable r.tag (Main root (r :: c))
  stable_under {root p r c} : Stable r.tag (Main root (⟨p, .raw, false⟩ :: r :: c))
  stable_read {t} : Stable t (fun st => (R.read t st).isSome)
  stable_root {t} : Stable t (fun st => (R.write t st).isSome)

  side_start {b B st} : Stable b B → B st → Side b B [] [] st
  side_end {b B T st} : Side b B T [] st → B st
  side_read {b B T P n st t} : Side b B T P st → Below n st → t = b ∨ t ∈ T →
    ∃ st', R.read t st = some st' ∧ Side b B T P st' ∧ Below n st'
  side_shared {b B T P n st t} (p : Bool) : Side b B T P st → Below n st → t = b ∨ t ∈ T →
    ∃ st', R.shared t n p st = some st' ∧ Side b B (n :: T) (if p then n :: P else P) st' ∧
      Below (n + 1) st'
  side_release {b B T P n st t} : Side b B T P st → Below n st → t ∈ T →
    ∃ st', R.release t st = some st' ∧ Side b B T (P.filter (· ≠ t)) st' ∧ Below n st'
  side_mono {b B T T' P P' st} : Side b B T P st → T' ⊆ T → P ⊆ P' → Side b B T' P' st

  root_write {root n st} : (R.write root st).isSome → Below n st →
    ∃ st', R.write root st = some st' ∧ (R.write root st').isSome ∧ Below n st'
  alloc_write {t} : (R.write t (R.alloc t)).isSome
  alloc_read {t} : (R.read t (R.alloc t)).isSome
  alloc_below {t} : Below (t + 1) (R.alloc t)

/-! ## Stacked Borrows -/

namespace Stacked

def tags (st : List Item) : List Tag := st.map (·.tag)

@[simp] theorem tags_cons (i : Item) (st : List Item) : tags (i :: st) = i.tag :: tags st := rfl

def Below (n : Tag) (st : List Item) : Prop := ∀ t ∈ tags st, t < n

def fits : Kind → Perm → Prop
  | .new, p => p = .unique
  | .raw, p => p = .sharedRW
  | .used, p => p = .unique ∨ p = .sharedRW

theorem fits_used {k p} (h : fits k p) : fits .used p := by
  cases k <;> simp_all [fits]

theorem fits_writes {k : Kind} {i : Item} {t : Tag} (h : fits k i.perm) (ht : i.tag = t) :
    i.writes t = true := by
  cases k <;> simp_all [fits, Item.writes]

def refTags (c : List Ref) : List Tag := c.map (·.tag)

inductive Main (root : Tag) : List Ref → List Item → Prop
  | root {st} : (write root st).isSome → Main root [] st
  | here {r c i st} : i.tag = r.tag → i.protect = r.protect → fits r.kind i.perm →
      r.tag ∉ refTags c → r.tag ≠ root → r.tag ∉ tags st → Main root c st →
      Main root (r :: c) (i :: st)
  | skip {r c i st} : i.protect = false → i.tag ∉ refTags (r :: c) → Main root (r :: c) st →
      Main root (r :: c) (i :: st)

theorem writeUp_tags {t st st' f} (h : writeUp t st = some (st', f)) : ∀ x ∈ st', x ∈ st := by
  induction st generalizing st' f with
  | nil => simp [writeUp] at h
  | cons i st ih =>
    unfold writeUp at h
    split at h
    · simp only [Option.some.injEq, Prod.mk.injEq] at h; rw [← h.1]; exact fun x hx => hx
    · cases hw : writeUp t st with
      | none => simp [hw] at h
      | some q =>
        obtain ⟨st1, f1⟩ := q
        simp only [hw, Option.bind_eq_bind, Option.bind_some] at h
        split at h
        · simp only [Option.some.injEq, Prod.mk.injEq] at h
          rw [← h.1]
          intro x hx
          rcases List.mem_cons.1 hx with rfl | hx
          · exact List.mem_cons_self
          · exact List.mem_cons_of_mem _ (ih hw x hx)
        · split at h
          · simp at h
          · simp only [Option.some.injEq, Prod.mk.injEq] at h
            rw [← h.1]
            exact fun x hx => List.mem_cons_of_mem _ (ih hw x hx)

theorem write_mem {t st st'} (h : write t st = some st') : ∀ x ∈ st', x ∈ st := by
  unfold write at h
  cases hw : writeUp t st with
  | none => simp [hw] at h
  | some q =>
    simp [hw] at h
    exact writeUp_tags (f := q.2) (by rw [hw, ← h])

theorem below_of_mem {n st st'} (h : Below n st) (hm : ∀ x ∈ st', x ∈ st) : Below n st' := by
  intro t ht
  simp only [tags, List.mem_map] at ht
  obtain ⟨x, hx, rfl⟩ := ht
  exact h _ (List.mem_map_of_mem (hm x hx))

theorem below_cons {n i st} (h : Below n st) (hi : i.tag < n) : Below n (i :: st) := by
  intro t ht
  simp only [tags_cons, List.mem_cons] at ht
  rcases ht with rfl | ht
  · exact hi
  · exact h t ht

theorem below_mono {n m st} (h : Below n st) (hm : n ≤ m) : Below m st :=
  fun t ht => Nat.lt_of_lt_of_le (h t ht) hm

theorem below_not_mem {n st} (h : Below n st) : n ∉ tags st :=
  fun hn => Nat.lt_irrefl _ (h n hn)

theorem writes_tag {i : Item} {t} (h : i.writes t = true) : i.tag = t := by
  simp [Item.writes] at h; exact h.1

theorem writeUp_has {t st st' f} (h : writeUp t st = some (st', f)) :
    t ∈ tags st' ∧ (∃ i st'', st' = i :: st'') := by
  induction st generalizing st' f with
  | nil => simp [writeUp] at h
  | cons i st ih =>
    unfold writeUp at h
    split at h
    · next hi =>
      simp only [Option.some.injEq, Prod.mk.injEq] at h
      rw [← h.1]
      exact ⟨by simp [writes_tag hi], _, _, rfl⟩
    · cases hw : writeUp t st with
      | none => simp [hw] at h
      | some q =>
        obtain ⟨st1, f1⟩ := q
        simp only [hw, Option.bind_eq_bind, Option.bind_some] at h
        have := ih hw
        split at h
        · simp only [Option.some.injEq, Prod.mk.injEq] at h
          rw [← h.1]
          exact ⟨by simp [this.1], _, _, rfl⟩
        · split at h
          · simp at h
          · simp only [Option.some.injEq, Prod.mk.injEq] at h
            rw [← h.1]
            exact this

theorem write_has {t st} (h : (write t st).isSome) : t ∈ tags st := by
  unfold write at h
  cases hw : writeUp t st with
  | none => simp [hw] at h
  | some q =>
    have := (writeUp_has (st' := q.1) (f := q.2) hw).1
    simp only [tags, List.mem_map] at this ⊢
    obtain ⟨x, hx, rfl⟩ := this
    exact ⟨x, writeUp_tags (f := q.2) hw x hx, rfl⟩

theorem writeUp_idem {t st st' f} (h : writeUp t st = some (st', f)) :
    ∃ f', writeUp t st' = some (st', f') ∧ (f = true → f' = true) := by
  induction st generalizing st' f with
  | nil => simp [writeUp] at h
  | cons i st ih =>
    unfold writeUp at h
    split at h
    · next hi =>
      simp only [Option.some.injEq, Prod.mk.injEq] at h
      obtain ⟨rfl, rfl⟩ := h
      exact ⟨_, by simp [writeUp, hi], id⟩
    · next hi =>
      cases hw : writeUp t st with
      | none => simp [hw] at h
      | some q =>
        obtain ⟨st1, f1⟩ := q
        simp only [hw, Option.bind_eq_bind, Option.bind_some] at h
        obtain ⟨f', h1, h2⟩ := ih hw
        split at h
        · next hf =>
          simp only [Option.some.injEq, Prod.mk.injEq] at h
          obtain ⟨rfl, rfl⟩ := h
          simp only [Bool.and_eq_true] at hf
          exact ⟨true, by simpa [writeUp, hi, h1, h2 hf.1] using hf.2, fun _ => rfl⟩
        · split at h
          · simp at h
          · simp only [Option.some.injEq, Prod.mk.injEq] at h
            obtain ⟨rfl, rfl⟩ := h
            exact ⟨f', h1, by simp⟩

theorem write_again {t st st'} (h : write t st = some st') : (write t st').isSome := by
  unfold write at h ⊢
  cases hw : writeUp t st with
  | none => simp [hw] at h
  | some q =>
    simp [hw] at h
    obtain ⟨f', h', _⟩ := writeUp_idem (st' := q.1) (f := q.2) hw
    rw [← h, h']; rfl

/-- Items that are not protected do not stand in the way of a write further down. -/
theorem write_skip {t i st} (h : (write t st).isSome) (hp : i.protect = false) :
    (write t (i :: st)).isSome := by
  unfold write at h ⊢
  cases hw : writeUp t st with
  | none => simp [hw] at h
  | some q =>
    unfold writeUp
    split
    · rfl
    · simp only [hw, Option.bind_eq_bind, Option.bind_some, hp]
      split <;> rfl

theorem main_tags {root c st} (h : Main root c st) : root ∈ tags st ∧ ∀ t ∈ refTags c, t ∈ tags st := by
  induction h with
  | root h => exact ⟨write_has h, by simp [refTags]⟩
  | here h1 _ _ _ _ _ _ ih =>
    refine ⟨by simp [ih.1], ?_⟩
    intro t ht
    simp only [refTags, List.map_cons, List.mem_cons] at ht
    rcases ht with rfl | ht
    · simp [h1]
    · simp [ih.2 t ht]
  | skip _ _ _ ih => exact ⟨by simp [ih.1], fun t ht => by simp [ih.2 t ht]⟩

theorem main_writeUp {root c st} (h : Main root c st) : ∀ {r c'}, c = r :: c' →
    ∃ st' f, writeUp r.tag st = some (st', f) ∧ Main root (r :: c') st' ∧ r.tag ≠ root := by
  induction h with
  | root => intro r c' h; cases h
  | @here r c i st h1 h2 h3 h4 h5 h6 hm ih =>
    intro r' c' hc; cases hc
    exact ⟨i :: st, i.perm == .sharedRW, by simp [writeUp, fits_writes h3 h1], .here h1 h2 h3 h4 h5 h6 hm, h5⟩
  | @skip r c i st h1 h2 hm ih =>
    intro r' c' hc; cases hc
    obtain ⟨st', f, hw, hm', hr⟩ := ih rfl
    have hi : i.writes r.tag = false := by
      cases h : i.writes r.tag with
      | false => rfl
      | true => exact absurd (writes_tag h) (fun h => h2 (by simp [refTags, h]))
    unfold writeUp
    simp only [hi, hw, Bool.false_eq_true, if_false, Option.bind_eq_bind, Option.bind_some, h1]
    split
    · exact ⟨_, _, rfl, .skip h1 h2 hm', hr⟩
    · exact ⟨_, _, rfl, hm', hr⟩

theorem main_use {root c st} (h : Main root c st) : Main root (c.map Ref.use) st := by
  induction h with
  | root h => exact .root h
  | here h1 h2 h3 h4 h5 h6 _ ih =>
    refine .here h1 h2 (fits_used h3) ?_ h5 h6 ih
    simpa [refTags, Ref.use] using h4
  | skip h1 h2 _ ih =>
    refine .skip h1 ?_ ih
    simpa [refTags, Ref.use] using h2

theorem main_write {root r c n st} (h : Main root (r :: c) st) (hn : Below n st) :
    ∃ st', write r.tag st = some st' ∧ Main root (r :: c) st' ∧ Below n st' := by
  obtain ⟨st', f, hw, hm, _⟩ := main_writeUp h rfl
  have : write r.tag st = some st' := by simp [write, hw]
  exact ⟨st', this, hm, below_of_mem hn (write_mem this)⟩

/-- Pushing a new item. -/
theorem main_push {root c n st} {k : Kind} {p : Bool} {q : Perm} (h : Main root c st)
    (hn : Below n st) (hq : fits k q) : Main root (⟨n, k, p⟩ :: c) (⟨n, q, p⟩ :: st) := by
  have hb := below_not_mem hn
  obtain ⟨h1, h2⟩ := main_tags h
  refine .here rfl rfl hq (fun hc => hb (h2 n hc)) (fun hc => hb ?_) hb h
  simp only at hc
  exact hc ▸ h1

theorem read_tags {t st st'} (h : read t st = some st') : tags st' = tags st := by
  induction st generalizing st' with
  | nil => simp [read] at h
  | cons i st ih =>
    unfold read at h
    split at h
    · simp only [Option.some.injEq] at h; rw [← h]
    · cases hr : read t st with
      | none => simp [hr] at h
      | some st1 =>
        have := ih hr
        split at h
        · split at h
          · simp at h
          · simp [hr] at h; rw [← h]; simp [this]
        · simp [hr] at h; rw [← h]; simp [this]

theorem read_has {t st st'} (h : read t st = some st') : t ∈ tags st := by
  induction st generalizing st' with
  | nil => simp [read] at h
  | cons i st ih =>
    unfold read at h
    split at h
    · next hi => simp [Item.reads] at hi; simp [hi.1]
    · cases hr : read t st with
      | none =>
        simp [hr] at h
      | some st1 => simp [ih hr]

theorem reads_of_fits {k : Kind} {i : Item} {t : Tag} (h : fits k i.perm) (ht : i.tag = t) :
    i.reads t = true := by
  cases k <;> simp_all [fits, Item.reads]
  rcases h with h | h <;> simp [h]

theorem not_reads {i : Item} {t : Tag} (h : i.tag ≠ t) : i.reads t = false := by
  simp [Item.reads, h]

theorem main_read {root c st} (h : Main root c st) : ∀ {r c'}, c = r :: c' →
    ∃ st', read r.tag st = some st' ∧ Main root (r :: c') st' := by
  induction h with
  | root => intro r c' h; cases h
  | @here r c i st h1 h2 h3 h4 h5 h6 hm ih =>
    intro r' c' hc; cases hc
    exact ⟨i :: st, by simp [read, reads_of_fits h3 h1], .here h1 h2 h3 h4 h5 h6 hm⟩
  | @skip r c i st h1 h2 hm ih =>
    intro r' c' hc; cases hc
    obtain ⟨st', hw, hm'⟩ := ih rfl
    have hi : i.reads r.tag = false := not_reads (fun h => h2 (by simp [refTags, h]))
    unfold read
    simp only [hi, hw, Bool.false_eq_true, if_false, Option.map_some, h1]
    split
    · exact ⟨_, rfl, .skip rfl h2 hm'⟩
    · exact ⟨_, rfl, .skip h1 h2 hm'⟩

theorem below_read {t n st st'} (h : read t st = some st') (hn : Below n st) : Below n st' := by
  unfold Below; rw [read_tags h]; exact hn

/-- Reading below a raw pointer leaves the raw pointer alone. -/
theorem main_under {root c st} (h : Main root c st) : ∀ {p r c'}, c = ⟨p, .raw, false⟩ :: r :: c' →
    ∃ st', read r.tag st = some st' ∧ Main root (⟨p, .raw, false⟩ :: r :: c') st' := by
  induction h with
  | root => intro p r c' h; cases h
  | @here r c i st h1 h2 h3 h4 h5 h6 hm ih =>
    intro p r' c' hc; cases hc
    obtain ⟨st', hr, hm'⟩ := main_read hm rfl
    have hi : i.reads r'.tag = false :=
      not_reads (fun h => h4 (by simp [refTags, ← h, h1]))
    simp only [fits] at h3
    unfold read
    simp only [hi, hr, Bool.false_eq_true, if_false, Option.map_some, h3, reduceCtorEq]
    exact ⟨_, rfl, .here h1 h2 h3 h4 h5 (by rw [read_tags hr]; exact h6) hm'⟩
  | @skip r c i st h1 h2 hm ih =>
    intro p r' c' hc; cases hc
    obtain ⟨st', hw, hm'⟩ := ih rfl
    have hi : i.reads r'.tag = false := not_reads (fun h => h2 (by simp [refTags, h]))
    unfold read
    simp only [hi, hw, Bool.false_eq_true, if_false, Option.map_some, h1]
    split
    · exact ⟨_, rfl, .skip rfl h2 hm'⟩
    · exact ⟨_, rfl, .skip h1 h2 hm'⟩

def unprotect (t : Tag) (st : List Item) : List Item :=
  st.map fun i => if i.tag = t then { i with protect := false } else i

@[simp] theorem unprotect_cons (t : Tag) (i : Item) (st : List Item) :
    unprotect t (i :: st) = (if i.tag = t then { i with protect := false } else i) :: unprotect t st := rfl

theorem unprotect_tags (t : Tag) (st : List Item) : tags (unprotect t st) = tags st := by
  induction st with
  | nil => rfl
  | cons i st ih => simp only [unprotect_cons, tags_cons, ih]; split <;> rfl

theorem below_unprotect {t n st} (hn : Below n st) : Below n (unprotect t st) := by
  unfold Below; rw [unprotect_tags]; exact hn

theorem unprotect_id {t : Tag} {st : List Item} (h : t ∉ tags st) : unprotect t st = st := by
  induction st with
  | nil => rfl
  | cons i st ih =>
    simp only [tags_cons, List.mem_cons, not_or] at h
    simp only [unprotect_cons, ih h.2, if_neg (fun h' => h.1 (Eq.symm h'))]

theorem main_release {root c st} (h : Main root c st) : ∀ {r c'}, c = r :: c' →
    Main root ({ r with protect := false } :: c') (unprotect r.tag st) := by
  induction h with
  | root => intro r c' h; cases h
  | @here r c i st h1 h2 h3 h4 h5 h6 hm ih =>
    intro r' c' hc; cases hc
    simp only [unprotect_cons, h1, if_true, unprotect_id h6]
    exact .here rfl rfl h3 h4 h5 h6 hm
  | @skip r c i st h1 h2 hm ih =>
    intro r' c' hc; cases hc
    have hne : i.tag ≠ r.tag := fun h => h2 (by simp [refTags, h])
    simp only [unprotect_cons, if_neg hne]
    exact .skip h1 h2 (ih rfl)

theorem main_release_under {root c st} (h : Main root c st) : ∀ {r r' c'}, c = r :: r' :: c' →
    Main root (r :: { r' with protect := false } :: c') (unprotect r'.tag st) := by
  induction h with
  | root => intro r r' c' h; cases h
  | @here r c i st h1 h2 h3 h4 h5 h6 hm ih =>
    intro r0 r' c' hc; cases hc
    have hne : i.tag ≠ r'.tag := fun h => h4 (by simp [refTags, ← h, h1])
    simp only [unprotect_cons, if_neg hne]
    exact .here h1 h2 h3 h4 h5 (by rw [unprotect_tags]; exact h6) (main_release hm rfl)
  | @skip r c i st h1 h2 hm ih =>
    intro r0 r' c' hc; cases hc
    have hne : i.tag ≠ r'.tag := fun h => h2 (by simp [refTags, h])
    simp only [unprotect_cons, if_neg hne]
    exact .skip h1 h2 (ih rfl)

theorem main_pop {root c st} (h : Main root c st) : ∀ {r c'}, c = r :: c' → r.protect = false →
    Main root c' st := by
  induction h with
  | root => intro r c' h; cases h
  | @here r c i st h1 h2 h3 h4 h5 h6 hm ih =>
    intro r' c' hc hp; cases hc
    rw [hp] at h2
    cases c with
    | nil => cases hm with | root hm => exact .root (write_skip hm h2)
    | cons r' c => exact .skip h2 (by rw [h1]; exact h4) hm
  | @skip r c i st h1 h2 hm ih =>
    intro r' c' hc hp; cases hc
    have := ih rfl hp
    cases c with
    | nil => cases this with | root hm => exact .root (write_skip hm h1)
    | cons r' c =>
      exact .skip h1 (fun h => h2 (by simp only [refTags, List.map_cons] at h ⊢; exact List.mem_cons_of_mem _ h)) this

theorem main_hide {root c st} (h : Main root c st) : ∀ {r r' c'}, c = r :: r' :: c' →
    r'.protect = false → Main root (r :: c') st := by
  induction h with
  | root => intro r r' c' h; cases h
  | @here r c i st h1 h2 h3 h4 h5 h6 hm ih =>
    intro r0 r' c' hc hp; cases hc
    exact .here h1 h2 h3 (fun h => h4 (by simp only [refTags, List.map_cons] at h ⊢; exact List.mem_cons_of_mem _ h))
      h5 h6 (main_pop hm rfl hp)
  | @skip r c i st h1 h2 hm ih =>
    intro r0 r' c' hc hp; cases hc
    refine .skip h1 (fun h => h2 ?_) (ih rfl hp)
    simp only [refTags, List.map_cons, List.mem_cons] at h ⊢
    rcases h with h | h
    · exact .inl h
    · exact .inr (.inr h)

theorem main_rawUp {root c st} (h : Main root c st) : ∀ {t c' n}, c = ⟨t, .new, true⟩ :: c' →
    Below n st → ∃ st', rawUp t n st = some (st', false) ∧
      Main root (⟨n, .raw, false⟩ :: ⟨t, .new, true⟩ :: c') st' ∧ Below (n + 1) st' := by
  induction h with
  | root => intro t c' n h; cases h
  | @here r c i st h1 h2 h3 h4 h5 h6 hm ih =>
    intro t c' n hc hn; cases hc
    have hw := fits_writes h3 h1
    have hm0 : Main root (⟨t, .new, true⟩ :: c) (i :: st) := .here h1 h2 h3 h4 h5 h6 hm
    simp only [fits] at h3
    exact ⟨⟨n, .sharedRW, false⟩ :: i :: st, by simp [rawUp, hw, h3], main_push hm0 hn rfl,
      below_cons (below_mono hn (Nat.le_succ n)) (Nat.lt_succ_self n)⟩
  | @skip r c i st h1 h2 hm ih =>
    intro t c' n hc hn; cases hc
    have hn' : Below n st := fun x hx => hn x (by simp [hx])
    obtain ⟨st', hr, hm', hb⟩ := ih rfl hn'
    have hne : i.tag ≠ t := fun h => h2 (by simp [refTags, h])
    have hi : i.writes t = false := by
      cases h : i.writes t with
      | false => rfl
      | true => exact absurd (writes_tag h) hne
    have hin : i.tag < n := hn _ (by simp)
    refine ⟨i :: st', by simp [rawUp, hi, hr], ?_, below_cons hb (Nat.lt_succ_of_lt hin)⟩
    refine .skip h1 (fun h => ?_) hm'
    rw [refTags, List.map_cons, List.mem_cons] at h
    rcases h with h | h
    · exact absurd h (Nat.ne_of_lt hin)
    · exact h2 h

theorem main_raw {root c st} (h : Main root c st) : ∀ {t c' n}, c = ⟨t, .new, true⟩ :: c' →
    Below n st → ∃ st', rawUp t n st = some (st', false) ∧
      Main root (⟨n, .raw, false⟩ :: c') (unprotect t st') ∧ Below (n + 1) st' := by
  intro t c' n hc hn
  obtain ⟨st', h1, h2, h3⟩ := main_rawUp h hc hn
  exact ⟨st', h1, main_hide (main_release_under h2 rfl) rfl rfl, h3⟩

theorem main_twoUp {root c st} (h : Main root c st) : ∀ {r c' n}, c = r :: c' → Below n st →
    ∃ st' f, rawUp r.tag n st = some (st', f) ∧ Below (n + 1) st' ∧
      (f = false → Main root (⟨n, .raw, false⟩ :: r :: c') st') ∧
      (f = true → st' = st) := by
  induction h with
  | root => intro r c' n h; cases h
  | @here r c i st h1 h2 h3 h4 h5 h6 hm ih =>
    intro r' c' n hc hn; cases hc
    have hw := fits_writes h3 h1
    have hm0 : Main root (r :: c) (i :: st) := .here h1 h2 h3 h4 h5 h6 hm
    by_cases hi : i.perm = .sharedRW
    · exact ⟨i :: st, true, by simp [rawUp, hw, hi], below_mono hn (Nat.le_succ n), by simp, fun _ => rfl⟩
    · exact ⟨⟨n, .sharedRW, false⟩ :: i :: st, false, by simp [rawUp, hw, hi],
        below_cons (below_mono hn (Nat.le_succ n)) (Nat.lt_succ_self n), fun _ => main_push hm0 hn rfl, by simp⟩
  | @skip r c i st h1 h2 hm ih =>
    intro r' c' n hc hn; cases hc
    have hn' : Below n st := fun x hx => hn x (by simp [hx])
    obtain ⟨st', f, hr, hb, hf, ht⟩ := ih rfl hn'
    have hne : i.tag ≠ r.tag := fun h => h2 (by simp [refTags, h])
    have hi : i.writes r.tag = false := by
      cases h : i.writes r.tag with
      | false => rfl
      | true => exact absurd (writes_tag h) hne
    have hin : i.tag < n := hn _ (by simp)
    have hnot : i.tag ∉ refTags (⟨n, .raw, false⟩ :: r :: c) := fun h => by
      rw [refTags, List.map_cons, List.mem_cons] at h
      rcases h with h | h
      · exact absurd h (Nat.ne_of_lt hin)
      · exact h2 h
    cases f with
    | false =>
      exact ⟨i :: st', false, by simp [rawUp, hi, hr], below_cons hb (Nat.lt_succ_of_lt hin),
        fun _ => .skip h1 hnot (hf rfl), by simp⟩
    | true =>
      cases ht rfl
      by_cases hp : i.perm = .sharedRW
      · exact ⟨i :: st, true, by simp [rawUp, hi, hr, hp], below_cons hb (Nat.lt_succ_of_lt hin), by simp,
          fun _ => rfl⟩
      · exact ⟨i :: ⟨n, .sharedRW, false⟩ :: st, false, by simp [rawUp, hi, hr, hp],
          below_cons (below_cons hb (Nat.lt_succ_self n)) (Nat.lt_succ_of_lt hin),
          fun _ => .skip h1 hnot (main_push hm hn' rfl), by simp⟩

theorem main_two {root r c n st} (h : Main root (r :: c) st) (hn : Below n st) :
    ∃ st', rawMut r.tag n st = some st' ∧ Main root (⟨n, .raw, false⟩ :: r :: c) st' ∧
      Below (n + 1) st' := by
  obtain ⟨st', f, h1, h2, h3, h4⟩ := main_twoUp h rfl hn
  cases f with
  | false => exact ⟨st', by simp [rawMut, h1], h3 rfl, h2⟩
  | true =>
    cases h4 rfl
    exact ⟨⟨n, .sharedRW, false⟩ :: st, by simp [rawMut, h1], main_push h hn rfl,
      below_cons h2 (Nat.lt_succ_self n)⟩

theorem root_twoUp {root n st x g} (h : writeUp root st = some (x, g)) (hn : Below n st) :
    ∃ st', rawUp root n st = some (st', g) ∧ Below (n + 1) st' ∧
      (g = false → Main root [⟨n, .raw, false⟩] st') ∧ (g = true → st' = st) := by
  induction st generalizing x g with
  | nil => simp [writeUp] at h
  | cons i st ih =>
    have hin : i.tag < n := hn _ (by simp)
    by_cases hw : i.writes root = true
    · simp only [writeUp, hw, if_true, Option.some.injEq, Prod.mk.injEq] at h
      obtain ⟨_, rfl⟩ := h
      by_cases hi : i.perm = .sharedRW
      · exact ⟨i :: st, by simp [rawUp, hw, hi], below_mono hn (Nat.le_succ n), by simp [hi], fun _ => rfl⟩
      · refine ⟨⟨n, .sharedRW, false⟩ :: i :: st, by simp [rawUp, hw, hi],
          below_cons (below_mono hn (Nat.le_succ n)) (Nat.lt_succ_self n), fun _ => main_push (.root ?_) hn rfl,
          by simp [hi]⟩
        simp [write, writeUp, hw]
    · have hn' : Below n st := fun x hx => hn x (by simp [hx])
      cases hu : writeUp root st with
      | none => simp [writeUp, hw, hu] at h
      | some q =>
        obtain ⟨y, e⟩ := q
        obtain ⟨st', hr, hb, hf, ht⟩ := ih hu hn'
        have hb' := below_cons hb (Nat.lt_succ_of_lt hin)
        have hnot : i.tag ∉ refTags [⟨n, .raw, false⟩] := by
          simp only [refTags, List.map_cons, List.map_nil, List.mem_singleton]
          exact Nat.ne_of_lt hin
        by_cases hg : (e && i.perm == .sharedRW) = true
        · simp only [Bool.and_eq_true, beq_iff_eq] at hg
          obtain ⟨rfl, hg⟩ := hg
          cases ht rfl
          simp [writeUp, hw, hu, hg] at h
          obtain ⟨_, rfl⟩ := h
          exact ⟨i :: st, by simp [rawUp, hw, hr, hg], hb', by simp, fun _ => rfl⟩
        · simp only [Bool.and_eq_true, beq_iff_eq, not_and] at hg
          have hp : i.protect = false ∧ g = false := by
            cases hp : i.protect <;> cases e <;> simp_all [writeUp]
          obtain ⟨hp, rfl⟩ := hp
          cases e with
          | false => exact ⟨i :: st', by simp [rawUp, hw, hr], hb', fun _ => .skip hp hnot (hf rfl), by simp⟩
          | true =>
            cases ht rfl
            refine ⟨i :: ⟨n, .sharedRW, false⟩ :: st, by simp [rawUp, hw, hr, hg rfl],
              below_cons (below_cons hb (Nat.lt_succ_self n)) (Nat.lt_succ_of_lt hin),
              fun _ => .skip hp hnot (main_push (.root ?_) hn' rfl), by simp⟩
            simp [write, hu]

theorem main_two_root {root n st} (h : (write root st).isSome) (hn : Below n st) :
    ∃ st', rawMut root n st = some st' ∧ Main root [⟨n, .raw, false⟩] st' ∧ Below (n + 1) st' := by
  cases hu : writeUp root st with
  | none => simp [write, hu] at h
  | some q =>
    obtain ⟨x, g⟩ := q
    obtain ⟨st', h1, h2, h3, h4⟩ := root_twoUp hu hn
    cases g with
    | false => exact ⟨st', by simp [rawMut, h1], h3 rfl, h2⟩
    | true =>
      cases h4 rfl
      exact ⟨⟨n, .sharedRW, false⟩ :: st, by simp [rawMut, h1], main_push (.root h) hn rfl,
        below_cons h2 (Nat.lt_succ_self n)⟩

/-- A tag that is not in the stack may not be used. -/
theorem below_read_none {t st} (h : Below t st) : read t st = none := by
  cases hr : read t st with
  | none => rfl
  | some st' => exact absurd (read_has hr) (below_not_mem h)

theorem below_write_none {t st} (h : Below t st) : write t st = none := by
  cases hw : write t st with
  | none => rfl
  | some st' => exact absurd (write_has (by rw [hw]; rfl)) (below_not_mem h)

theorem read_of_writeUp {t st x f} (h : writeUp t st = some (x, f)) :
    ∃ st' x', read t st = some st' ∧ writeUp t st' = some (x', f) := by
  induction st generalizing x f with
  | nil => simp [writeUp] at h
  | cons i st ih =>
    by_cases hr : i.reads t = true
    · exact ⟨i :: st, x, by simp [read, hr], h⟩
    · have hw : i.writes t = false := by
        cases hw : i.writes t with
        | false => rfl
        | true =>
          refine absurd ?_ hr
          simp only [Item.writes, Bool.and_eq_true, Bool.or_eq_true, beq_iff_eq] at hw
          rcases hw with ⟨h1, h2 | h2⟩ <;> simp [Item.reads, h1, h2]
      unfold writeUp at h
      rw [hw] at h
      cases hu : writeUp t st with
      | none => simp [hu] at h
      | some q =>
        obtain ⟨y, g⟩ := q
        obtain ⟨st1, y', h1, h2⟩ := ih hu
        simp only [hu, Bool.false_eq_true, if_false, Option.bind_eq_bind, Option.bind_some] at h
        by_cases hp : i.perm = .unique
        · rw [if_neg (by simp [hp])] at h
          split at h
          · simp at h
          · next hpr =>
            simp only [Option.some.injEq, Prod.mk.injEq] at h
            refine ⟨{ i with perm := .disabled } :: st1, y', by simp [read, hr, hp, hpr, h1], ?_⟩
            rw [← h.2]
            simp [writeUp, Item.writes, h2, hpr]
        · refine ⟨i :: st1, if (g && i.perm == .sharedRW) = true then i :: y' else y',
            by simp [read, hr, hp, h1], ?_⟩
          simp only [writeUp, hw, h2, Bool.false_eq_true, if_false, Option.bind_eq_bind, Option.bind_some]
          split
          · next hg => rw [if_pos hg] at h; simp only [Option.some.injEq, Prod.mk.injEq] at h; simp [h.2]
          · next hg =>
            rw [if_neg hg] at h
            split at h
            · simp at h
            · next hpr =>
              simp only [Option.some.injEq, Prod.mk.injEq] at h
              simp [hpr, h.2]

theorem read_of_write {t st} (h : (write t st).isSome) :
    ∃ st', read t st = some st' ∧ (write t st').isSome := by
  unfold write at h
  cases hw : writeUp t st with
  | none => simp [hw] at h
  | some q =>
    obtain ⟨st', x', h1, h2⟩ := read_of_writeUp (x := q.1) (f := q.2) hw
    exact ⟨st', h1, by simp [write, h2]⟩

theorem write_push {t i st} (h : (write t st).isSome) (hp : i.protect = false) (hi : i.tag ∉ tags st) :
    (write t (i :: st)).isSome := by
  have hne : i.writes t = false := by
    cases hw : i.writes t with
    | false => rfl
    | true => exact absurd (writes_tag hw ▸ write_has h) hi
  unfold write at h ⊢
  cases hw : writeUp t st with
  | none => simp [hw] at h
  | some q =>
    simp only [writeUp, hne, hw, hp, Bool.false_eq_true, if_false, Option.bind_eq_bind, Option.bind_some]
    split <;> rfl

/-! ### Shared references -/

structure Stable (b : Tag) (B : List Item → Prop) : Prop where
  read : ∀ {st}, B st → ∃ st', read b st = some st' ∧ B st'
  push : ∀ {i st}, B st → i.protect = false → i.tag ∉ tags st → B (i :: st)

inductive Side (b : Tag) (B : List Item → Prop) : List Tag → List Tag → List Item → Prop
  | base {P st} : Stable b B → B st → Side b B [] P st
  | push {T P T' P' i st} : Side b B T P st → i.perm = .sharedRO → i.tag ∉ tags st →
      (i.protect = true → i.tag ∈ P') → P ⊆ P' → T' ⊆ i.tag :: T → Side b B T' P' (i :: st)

theorem side_mono {b B T T' P P' st} (h : Side b B T P st) (hT : T' ⊆ T) (hP : P ⊆ P') :
    Side b B T' P' st := by
  cases h with
  | base hs hB => cases List.subset_nil.1 hT; exact .base hs hB
  | push h h1 h2 h3 h4 h5 => exact .push h h1 h2 (fun hp => hP (h3 hp)) (fun x hx => hP (h4 hx)) (fun x hx => h5 (hT hx))

theorem side_stable {b B T P st} (h : Side b B T P st) : Stable b B := by
  induction h with
  | base hs => exact hs
  | push _ _ _ _ _ _ ih => exact ih

theorem side_end {b B T P st} (h : Side b B T P st) : P = [] → B st := by
  induction h with
  | base hs hB => exact fun _ => hB
  | push h h1 h2 h3 h4 h5 ih =>
    rintro rfl
    have := ih (List.subset_nil.1 h4)
    refine (side_stable h).push this ?_ h2
    cases hp : Item.protect _ with
    | false => rfl
    | true => exact absurd (h3 hp) (by simp)

theorem side_read {b B T P st} (h : Side b B T P st) : ∀ {t}, t = b ∨ t ∈ T →
    ∃ st', read t st = some st' ∧ Side b B T P st' := by
  induction h with
  | base hs hB =>
    intro t ht
    rcases ht with rfl | ht
    · obtain ⟨st', h1, h2⟩ := hs.read hB
      exact ⟨st', h1, .base hs h2⟩
    · simp at ht
  | @push T P T' P' i st h h1 h2 h3 h4 h5 ih =>
    intro t ht
    by_cases hi : i.tag = t
    · exact ⟨i :: st, by simp [read, Item.reads, hi, h1], .push h h1 h2 h3 h4 h5⟩
    · obtain ⟨st', hr, hs⟩ := ih (t := t) (by
        rcases ht with ht | ht
        · exact .inl ht
        · rcases List.mem_cons.1 (h5 ht) with h' | h'
          · exact absurd h'.symm hi
          · exact .inr h')
      refine ⟨i :: st', ?_, .push hs h1 (by rw [read_tags hr]; exact h2) h3 h4 h5⟩
      simp [read, not_reads hi, h1, hr]

theorem unprotect_shared {i : Item} {t : Tag} (h : i.perm = .sharedRO) :
    (if i.tag = t then { i with protect := false } else i).perm = .sharedRO := by
  split <;> exact h

theorem side_release {b B T P st} (h : Side b B T P st) : ∀ {t}, t ∈ T →
    Side b B T (P.filter (· ≠ t)) (unprotect t st) := by
  induction h with
  | base hs hB => intro t ht; simp at ht
  | @push T P T' P' i st h h1 h2 h3 h4 h5 ih =>
    intro t ht
    by_cases hi : i.tag = t
    · have hid : unprotect t st = st := unprotect_id (hi ▸ h2)
      simp only [unprotect_cons, hi, if_true, hid]
      -- the items below that are protected have other tags
      have key : ∀ {T P st}, Side b B T P st → ∀ {t}, t ∉ tags st →
          Side b B T (P.filter (· ≠ t)) st := by
        intro T P st h
        induction h with
        | base hs hB => exact fun _ => .base hs hB
        | push h h1 h2 h3 h4 h5 ih =>
          intro t ht
          simp only [tags_cons, List.mem_cons, not_or] at ht
          refine .push (ih ht.2) h1 h2 (fun hp => ?_) ?_ h5
          · simp [h3 hp, Ne.symm ht.1]
          · intro x hx
            simp only [List.mem_filter] at hx ⊢
            exact ⟨h4 hx.1, hx.2⟩
      refine .push (key h (hi ▸ h2)) h1 (hi ▸ h2) (by simp) ?_ (by simpa [hi] using h5)
      intro x hx
      simp only [List.mem_filter] at hx ⊢
      exact ⟨h4 hx.1, hx.2⟩
    · simp only [unprotect_cons, if_neg hi]
      have htT : t ∈ T := by
        rcases List.mem_cons.1 (h5 ht) with h' | h'
        · exact absurd h'.symm hi
        · exact h'
      refine .push (ih htT) h1 (by rw [unprotect_tags]; exact h2) (fun hp => ?_) ?_ h5
      · simp [h3 hp, hi]
      · intro x hx
        simp only [List.mem_filter] at hx ⊢
        exact ⟨h4 hx.1, hx.2⟩

theorem main_fresh {root r c st} {i : Item} (h : Main root (r :: c) st) (hp : i.protect = false)
    (hi : i.tag ∉ tags st) : Main root (r :: c) (i :: st) := by
  obtain ⟨h1, h2⟩ := main_tags h
  exact .skip hp (fun hc => hi (h2 _ hc)) h

theorem read_again {t st st'} (h : read t st = some st') : read t st' = some st' := by
  induction st generalizing st' with
  | nil => simp [read] at h
  | cons i st ih =>
    unfold read at h
    split at h
    · next hi => simp only [Option.some.injEq] at h; subst h; simp [read, hi]
    · next hi =>
      cases hr : read t st with
      | none => simp [hr] at h
      | some st1 =>
        have := ih hr
        split at h
        · split at h
          · simp at h
          · simp [hr] at h
            subst h
            simp [read, this, Item.reads]
        · next hu =>
          simp [hr] at h
          subst h
          simp [read, this, hi, hu]

def laws : Laws rules where
  Below := Below
  Main := Main
  Stable := Stable
  Side := Side
  below_mono := below_mono
  main_enter {root n st} p h hn := by
    obtain ⟨st', hw⟩ := Option.isSome_iff_exists.1 h
    have hb := below_of_mem hn (write_mem hw)
    refine ⟨⟨n, .unique, p⟩ :: st', by simp only [rules] at hw ⊢; rw [hw]; rfl, ?_,
      below_cons (below_mono hb (Nat.le_succ n)) (Nat.lt_succ_self n)⟩
    exact main_push (.root (write_again hw)) hb rfl
  main_write h hn := by
    obtain ⟨st', h1, h2, h3⟩ := main_write h hn
    exact ⟨st', h1, main_use h2, h3⟩
  main_read h hn := by
    obtain ⟨st', h1, h2⟩ := main_read h rfl
    exact ⟨st', h1, h2, below_read h1 hn⟩
  main_unique {root r c n st} p h hn := by
    obtain ⟨st', h1, h2, h3⟩ := main_write h hn
    exact ⟨⟨n, .unique, p⟩ :: st', by simp [rules, h1], main_push h2 h3 rfl,
      below_cons (below_mono h3 (Nat.le_succ n)) (Nat.lt_succ_self n)⟩
  main_raw {root t c n st} h hn := by
    obtain ⟨st', h1, h2, h3⟩ := main_raw h rfl hn
    exact ⟨st', unprotect t st', by simp [rules, rawMut, h1], rfl, h2,
      below_unprotect h3⟩
  main_raw_unique {root t r c n st} h hn := by
    obtain ⟨st1, h1, h2, h3⟩ := main_rawUp h rfl hn
    obtain ⟨st2, g1, g2, g3⟩ := main_write h2 h3
    have g4 : Main root (⟨n + 1, .new, false⟩ :: _) (⟨n + 1, .unique, false⟩ :: st2) :=
      main_push (q := .unique) g2 g3 rfl
    have g5 : Below (n + 2) (⟨n + 1, .unique, false⟩ :: st2) :=
      below_cons (below_mono g3 (Nat.le_succ _)) (Nat.lt_succ_self (n + 1))
    refine ⟨st1, by simp [rules, rawMut, h1], h3,
      ⟨unprotect t st1, rfl, main_pop (main_hide (main_release_under h2 rfl) rfl rfl) rfl rfl,
        below_unprotect h3⟩,
      ⟨n + 1, .unique, false⟩ :: st2, _, by simp only [rules] at g1 ⊢; rw [g1]; rfl, g5, rfl,
        main_hide (main_release_under (main_hide g4 rfl rfl) rfl) rfl rfl, below_unprotect g5⟩
  main_two := main_two
  main_two_root := main_two_root
  main_release {root t k c n st} h hn :=
    ⟨unprotect t st, rfl, main_use (main_release h rfl), below_unprotect hn⟩
  main_release_new {root t c n st} h hn :=
    ⟨unprotect t st, rfl, main_release h rfl, below_unprotect hn⟩
  main_release_under {root u t c n st} h hn :=
    ⟨unprotect t st, rfl, main_release_under h rfl, below_unprotect hn⟩
  main_hide h _ := main_hide h rfl rfl
  main_pop h hp := main_pop h rfl hp
  main_relax h := main_use h
  main_root h hp := by cases main_pop h rfl hp with | root h => exact h
  stable_main := { read := fun h => main_read h rfl, push := main_fresh }
  stable_under := { read := fun h => main_under h rfl, push := main_fresh }
  stable_read {t} := {
    read := fun {st} h => by
      obtain ⟨st', hr⟩ := Option.isSome_iff_exists.1 h
      exact ⟨st', hr, Option.isSome_iff_exists.2 ⟨st', read_again hr⟩⟩
    push := fun {i st} h hp hi => by
      obtain ⟨st', hr⟩ := Option.isSome_iff_exists.1 h
      have hne : i.tag ≠ t := fun h => hi (h ▸ read_has hr)
      simp only [rules] at hr
      simp only [rules, read, not_reads hne, hr, hp, Bool.false_eq_true, if_false]
      split <;> rfl }
  stable_root {t} := ⟨fun h => read_of_write h, fun h hp hi => write_push h hp hi⟩
  side_start hs hB := .base hs hB
  side_end h := side_end h rfl
  side_read h hn ht := by
    obtain ⟨st', h1, h2⟩ := side_read h ht
    exact ⟨st', h1, h2, below_read h1 hn⟩
  side_shared {b B T P n st t} p h hn ht := by
    obtain ⟨st', h1, h2⟩ := side_read h ht
    have hb : Below n st' := below_read h1 hn
    refine ⟨⟨n, .sharedRO, p⟩ :: st', by simp [rules, h1], ?_,
      below_cons (below_mono hb (Nat.le_succ n)) (Nat.lt_succ_self n)⟩
    refine .push h2 rfl (below_not_mem hb) (fun hp => ?_) ?_ (fun _ h => h)
    · simp only at hp; simp [hp]
    · intro x hx; split
      · exact List.mem_cons_of_mem _ hx
      · exact hx
  side_release {b B T P n st t} h hn ht :=
    ⟨unprotect t st, rfl, side_release h ht, below_unprotect hn⟩
  side_mono := side_mono
  root_write {root n st} h hn := by
    obtain ⟨st', hw⟩ := Option.isSome_iff_exists.1 h
    exact ⟨st', hw, write_again hw, below_of_mem hn (write_mem hw)⟩
  alloc_write := by simp [rules, write, writeUp, Item.writes]
  alloc_read := by simp [rules, read, Item.reads]
  alloc_below {t} := by
    intro x hx
    simp only [rules, tags, List.map_cons, List.map_nil, List.mem_singleton] at hx
    exact hx ▸ Nat.lt_succ_self t

end Stacked

/-! ## Tree Borrows -/

namespace Tree

def tags (st : List Node) : List Tag := st.map (·.tag)

@[simp] theorem tags_cons (x : Node) (st : List Node) : tags (x :: st) = x.tag :: tags st := rfl

def Below (n : Tag) (st : List Node) : Prop := ∀ t ∈ tags st, t < n

theorem below_cons {n x st} (h : Below n st) (hx : x.tag < n) : Below n (x :: st) := by
  intro t ht
  simp only [tags_cons, List.mem_cons] at ht
  rcases ht with rfl | ht
  · exact hx
  · exact h t ht

theorem below_mono {n m st} (h : Below n st) (hm : n ≤ m) : Below m st :=
  fun t ht => Nat.lt_of_lt_of_le (h t ht) hm

theorem below_not_mem {n st} (h : Below n st) : n ∉ tags st :=
  fun hn => Nat.lt_irrefl _ (h n hn)

theorem has_iff {t st} : has t st = true ↔ t ∈ tags st := by
  simp only [has, tags, List.any_eq_true, beq_iff_eq, List.mem_map]

/-- One step of `access`: the node, and the tag to look for in the older nodes. -/
def step (w : Bool) (t : Tag) (x : Node) : Option Perm :=
  if x.tag = t then (if w then childWrite x.protect x.perm else childRead x.perm)
  else (if w then foreignWrite x.protect x.perm else foreignRead x.protect x.perm)

def nextTag (t : Tag) (x : Node) : Tag := if x.tag = t then x.parent else t

theorem access_cons (w : Bool) (t : Tag) (x : Node) (st : List Node) :
    access w t (x :: st) = (step w t x).bind fun p =>
      (access w (nextTag t x) st).map ({ x with perm := p } :: ·) := by
  rw [access, step, nextTag]
  by_cases hx : x.tag = t <;> cases w <;>
    simp only [hx, if_true, if_false, Bool.false_eq_true, Option.bind_eq_bind] <;> congr <;>
    funext p <;> generalize access _ _ st = o <;> cases o <;> rfl

theorem access_cons_some {w t x st st'} (h : access w t (x :: st) = some st') :
    ∃ p st1, step w t x = some p ∧ access w (nextTag t x) st = some st1 ∧
      st' = { x with perm := p } :: st1 := by
  rw [access_cons] at h
  cases hs : step w t x with
  | none => simp [hs] at h
  | some p =>
    cases ha : access w (nextTag t x) st with
    | none => simp [hs, ha] at h
    | some st1 => simp [hs, ha] at h; exact ⟨p, st1, rfl, rfl, h.symm⟩

theorem access_of {w t x st p st1} (hs : step w t x = some p)
    (ha : access w (nextTag t x) st = some st1) :
    access w t (x :: st) = some ({ x with perm := p } :: st1) := by
  rw [access_cons, hs, ha]; rfl

theorem access_tags {w t st st'} (h : access w t st = some st') : tags st' = tags st := by
  induction st generalizing t st' with
  | nil => simp [access] at h; rw [← h]
  | cons x st ih =>
    obtain ⟨p, st1, _, h2, rfl⟩ := access_cons_some h
    simp [ih h2]

theorem read_eq {t st st'} : read t st = some st' ↔ t ∈ tags st ∧ access false t st = some st' := by
  unfold read
  cases h : has t st with
  | true => simp [has_iff.1 h]
  | false => simp [← has_iff, h]

theorem write_eq {t st st'} : write t st = some st' ↔ t ∈ tags st ∧ access true t st = some st' := by
  unfold write
  cases h : has t st with
  | true => simp [has_iff.1 h]
  | false => simp [← has_iff, h]

theorem write_isSome {t st} : (write t st).isSome ↔ t ∈ tags st ∧ (access true t st).isSome := by
  unfold write
  cases h : has t st with
  | true => simp [has_iff.1 h]
  | false => simp [← has_iff, h]

theorem read_isSome {t st} : (read t st).isSome ↔ t ∈ tags st ∧ (access false t st).isSome := by
  unfold read
  cases h : has t st with
  | true => simp [has_iff.1 h]
  | false => simp [← has_iff, h]

/-- Whoever may write may read first. -/
theorem step_read_of_write {t x p} (h : step true t x = some p) :
    ∃ q, step false t x = some q ∧ (step true t { x with perm := q }).isSome := by
  unfold step at h ⊢
  split at h
  · next hx =>
    simp only [hx, if_true] at h ⊢
    refine ⟨x.perm, ?_, ?_⟩
    · cases hp : x.perm <;> simp [hp, childWrite] at h <;> simp [childRead]
    · simp [h]
  · next hx =>
    simp only [hx, if_false, Bool.false_eq_true, if_true] at h ⊢
    cases hp : x.perm <;> cases hq : x.protect <;> simp [hp, hq, foreignWrite] at h <;>
      simp [foreignRead, foreignWrite]

theorem step_write_again {t x p} (h : step true t x = some p) :
    (step true t { x with perm := p }).isSome := by
  unfold step at h ⊢
  split at h
  · next hx =>
    simp only [hx, if_true] at h ⊢
    have : p = .active := by
      cases hp : x.perm <;> simp [hp, childWrite] at h
      · exact h.2.symm
      · exact h.symm
    simp [this, childWrite]
  · next hx =>
    simp only [hx, if_false, if_true] at h ⊢
    cases hp : x.perm <;> cases hq : x.protect <;> simp [hp, hq, foreignWrite] at h <;>
      simp [foreignWrite, ← h]

theorem step_read_again {t x p} (h : step false t x = some p) :
    (step false t { x with perm := p }).isSome := by
  unfold step at h ⊢
  split at h
  · next hx =>
    simp only [hx, Bool.false_eq_true, if_false, if_true] at h ⊢
    cases hp : x.perm <;> simp [hp, childRead] at h <;> simp [childRead, ← h]
  · next hx =>
    simp only [hx, if_false, Bool.false_eq_true] at h ⊢
    cases hp : x.perm <;> cases hq : x.protect <;> simp [hp, hq, foreignRead] at h <;>
      subst h <;> rfl

theorem access_read_of_write {t st} (h : (access true t st).isSome) :
    ∃ st', access false t st = some st' ∧ (access true t st').isSome := by
  induction st generalizing t with
  | nil => exact ⟨[], rfl, rfl⟩
  | cons x st ih =>
    obtain ⟨st', h⟩ := Option.isSome_iff_exists.1 h
    obtain ⟨p, st1, h1, h2, rfl⟩ := access_cons_some h
    obtain ⟨q, h3, h4⟩ := step_read_of_write h1
    obtain ⟨st2, h5, h6⟩ := ih (Option.isSome_iff_exists.2 ⟨st1, h2⟩)
    obtain ⟨p', h4⟩ := Option.isSome_iff_exists.1 h4
    obtain ⟨st3, h6⟩ := Option.isSome_iff_exists.1 h6
    exact ⟨_, access_of h3 h5, Option.isSome_iff_exists.2 ⟨_, access_of h4 h6⟩⟩

theorem access_write_again {t st st'} (h : access true t st = some st') :
    (access true t st').isSome := by
  induction st generalizing t st' with
  | nil => simp [access] at h; subst h; rfl
  | cons x st ih =>
    obtain ⟨p, st1, h1, h2, rfl⟩ := access_cons_some h
    obtain ⟨p', h4⟩ := Option.isSome_iff_exists.1 (step_write_again h1)
    obtain ⟨st3, h6⟩ := Option.isSome_iff_exists.1 (ih h2)
    exact Option.isSome_iff_exists.2 ⟨_, access_of h4 h6⟩

theorem access_read_again {t st st'} (h : access false t st = some st') :
    (access false t st').isSome := by
  induction st generalizing t st' with
  | nil => simp [access] at h; subst h; rfl
  | cons x st ih =>
    obtain ⟨p, st1, h1, h2, rfl⟩ := access_cons_some h
    obtain ⟨p', h4⟩ := Option.isSome_iff_exists.1 (step_read_again h1)
    obtain ⟨st3, h6⟩ := Option.isSome_iff_exists.1 (ih h2)
    exact Option.isSome_iff_exists.2 ⟨_, access_of h4 h6⟩

/-- A node that is not protected does not stand in the way of others. -/
theorem step_foreign {w t x} (hx : x.tag ≠ t) (hp : x.protect = false) : ∃ p, step w t x = some p := by
  unfold step
  simp only [hx, if_false, hp]
  cases w <;> cases x.perm <;> simp [foreignRead, foreignWrite]

theorem nextTag_ne {t x} (hx : x.tag ≠ t) : nextTag t x = t := if_neg hx

theorem nextTag_eq {t x} (hx : x.tag = t) : nextTag t x = x.parent := if_pos hx

def fits : Kind → Perm → Prop
  | .used, p => p = .reserved false ∨ p = .active
  | _, p => p = .reserved false

theorem fits_used {k p} (h : fits k p) : fits .used p := by
  cases k <;> simp_all [fits]

theorem fits_read {k : Kind} {x : Node} {t : Tag} (h : fits k x.perm) (ht : x.tag = t) :
    step false t x = some x.perm := by
  cases k <;> simp_all [fits, step, childRead]
  rcases h with h | h <;> simp [h]

theorem fits_write {k : Kind} {x : Node} {t : Tag} (h : fits k x.perm) (ht : x.tag = t) :
    step true t x = some .active := by
  cases k <;> simp_all [fits, step, childWrite]
  rcases h with h | h <;> simp [h]

/-- Somebody else's read does not change a reference that was never written through. -/
theorem fits_foreign {k : Kind} {x : Node} {t : Tag} (h : fits k x.perm) (hk : k ≠ .used)
    (ht : x.tag ≠ t) (hp : x.protect = false) : step false t x = some x.perm := by
  cases k <;> simp_all [fits, step, foreignRead]

def refTags (c : List Ref) : List Tag := c.map (·.tag)

/-- Starting from the tag `cur`, made from the references `c` (and possibly others in between, made
like the last one, whose kind is `k`), which were made from `root`. -/
inductive Chain (root : Tag) : Kind → Tag → List Ref → List Node → Prop
  | root {k st} : (write root st).isSome → Chain root k root [] st
  | here {k r c x st} : x.tag = r.tag → x.protect = r.protect → fits r.kind x.perm →
      r.tag ∉ refTags c → r.tag ≠ root → r.tag ∉ tags st → Chain root r.kind x.parent c st →
      Chain root k r.tag (r :: c) (x :: st)
  | hidden {k cur r c x st} : x.tag = cur → cur ∉ refTags (r :: c) → cur ≠ root →
      x.protect = false → fits k x.perm → Chain root k x.parent (r :: c) st →
      Chain root k cur (r :: c) (x :: st)
  | skip {k cur r c x st} : x.tag ≠ cur → x.tag ∉ refTags (r :: c) → x.tag ≠ root →
      x.protect = false → Chain root k cur (r :: c) st → Chain root k cur (r :: c) (x :: st)

theorem chain_tags {root k cur c st} (h : Chain root k cur c st) :
    root ∈ tags st ∧ cur ∈ tags st ∧ ∀ t ∈ refTags c, t ∈ tags st := by
  induction h with
  | root h => exact ⟨(write_isSome.1 h).1, (write_isSome.1 h).1, by simp [refTags]⟩
  | here h1 _ _ _ _ _ _ ih =>
    refine ⟨by simp [ih.1], by simp [h1], ?_⟩
    intro t ht
    simp only [refTags, List.map_cons, List.mem_cons] at ht
    rcases ht with rfl | ht
    · simp [h1]
    · simp [ih.2.2 t ht]
  | hidden h1 _ _ _ _ _ ih => exact ⟨by simp [ih.1], by simp [h1], fun t ht => by simp [ih.2.2 t ht]⟩
  | skip _ _ _ _ _ ih => exact ⟨by simp [ih.1], by simp [ih.2.1], fun t ht => by simp [ih.2.2 t ht]⟩

theorem chain_restart {root k cur c st} (h : Chain root k cur c st) : ∀ {r c'} (k'), c = r :: c' →
    Chain root k' r.tag (r :: c') st := by
  induction h with
  | root => intro r c' k' h; cases h
  | here h1 h2 h3 h4 h5 h6 h7 ih => intro r c' k' h; cases h; exact .here h1 h2 h3 h4 h5 h6 h7
  | hidden h1 h2 h3 h4 h5 h6 ih =>
    intro r c' k' h; cases h
    refine .skip (fun h => h2 ?_) (h1 ▸ h2) (h1 ▸ h3) h4 (ih k' rfl)
    simp [refTags, ← h, h1]
  | skip h1 h2 h3 h4 h5 ih =>
    intro r c' k' h; cases h
    refine .skip (fun h => h2 ?_) h2 h3 h4 (ih k' rfl)
    simp [refTags, ← h]

theorem chain_read {root k cur c st} (h : Chain root k cur c st) :
    ∃ st', access false cur st = some st' ∧ Chain root k cur c st' := by
  induction h with
  | root h =>
    obtain ⟨h1, h2⟩ := write_isSome.1 h
    obtain ⟨st', h3, h4⟩ := access_read_of_write h2
    exact ⟨st', h3, .root (write_isSome.2 ⟨by rw [access_tags h3]; exact h1, h4⟩)⟩
  | here h1 h2 h3 h4 h5 h6 _ ih =>
    obtain ⟨st', h8, h9⟩ := ih
    exact ⟨_, access_of (fits_read h3 h1) (by rw [nextTag_eq h1]; exact h8),
      .here h1 h2 h3 h4 h5 (by rw [access_tags h8]; exact h6) h9⟩
  | hidden h1 h2 h3 h4 h5 _ ih =>
    obtain ⟨st', h8, h9⟩ := ih
    exact ⟨_, access_of (fits_read h5 h1) (by rw [nextTag_eq h1]; exact h8),
      .hidden h1 h2 h3 h4 h5 h9⟩
  | skip h1 h2 h3 h4 _ ih =>
    obtain ⟨st', h8, h9⟩ := ih
    obtain ⟨p, hp⟩ := step_foreign (w := false) h1 h4
    exact ⟨_, access_of hp (by rw [nextTag_ne h1]; exact h8), .skip h1 h2 h3 h4 h9⟩

theorem use_tags (c : List Ref) : refTags (c.map Ref.use) = refTags c := by
  simp [refTags, Ref.use]

theorem chain_write {root k cur c st} (h : Chain root k cur c st) :
    ∃ st', access true cur st = some st' ∧ Chain root .used cur (c.map Ref.use) st' := by
  induction h with
  | root h =>
    obtain ⟨h1, h2⟩ := write_isSome.1 h
    obtain ⟨st', h3⟩ := Option.isSome_iff_exists.1 h2
    exact ⟨st', h3, .root (write_isSome.2 ⟨by rw [access_tags h3]; exact h1, access_write_again h3⟩)⟩
  | @here k r c x st h1 h2 h3 h4 h5 h6 _ ih =>
    obtain ⟨st', h8, h9⟩ := ih
    refine ⟨_, access_of (fits_write h3 h1) (by rw [nextTag_eq h1]; exact h8), ?_⟩
    exact .here (r := r.use) h1 h2 (.inr rfl) (by rw [use_tags]; exact h4) h5
      (by rw [access_tags h8]; exact h6) h9
  | hidden h1 h2 h3 h4 h5 _ ih =>
    obtain ⟨st', h8, h9⟩ := ih
    refine ⟨_, access_of (fits_write h5 h1) (by rw [nextTag_eq h1]; exact h8), ?_⟩
    exact .hidden h1 (by rw [← List.map_cons, use_tags]; exact h2) h3 h4 (.inr rfl) h9
  | skip h1 h2 h3 h4 _ ih =>
    obtain ⟨st', h8, h9⟩ := ih
    obtain ⟨p, hp⟩ := step_foreign (w := true) h1 h4
    refine ⟨_, access_of hp (by rw [nextTag_ne h1]; exact h8), ?_⟩
    exact .skip h1 (by rw [← List.map_cons, use_tags]; exact h2) h3 h4 h9

/-- Reading through the last reference, below ones that were never written through. -/
theorem chain_under {root k cur c st} (h : Chain root k cur c st) : ∀ {r c'}, c = r :: c' →
    k ≠ .used → ∃ st', access false r.tag st = some st' ∧ Chain root k cur c st' := by
  induction h with
  | root => intro r c' h; cases h
  | here h1 h2 h3 h4 h5 h6 h7 ih =>
    intro r' c' hc hk; cases hc
    obtain ⟨st', h8, h9⟩ := chain_read h7
    exact ⟨_, access_of (fits_read h3 h1) (by rw [nextTag_eq h1]; exact h8),
      .here h1 h2 h3 h4 h5 (by rw [access_tags h8]; exact h6) h9⟩
  | @hidden k cur r c x st h1 h2 h3 h4 h5 _ ih =>
    intro r' c' hc hk; cases hc
    obtain ⟨st', h8, h9⟩ := ih rfl hk
    have hne : x.tag ≠ r.tag := fun h => h2 (by simp [refTags, ← h, h1])
    exact ⟨_, access_of (fits_foreign h5 hk hne h4) (by rw [nextTag_ne hne]; exact h8),
      .hidden h1 h2 h3 h4 h5 h9⟩
  | @skip k cur r c x st h1 h2 h3 h4 _ ih =>
    intro r' c' hc hk; cases hc
    obtain ⟨st', h8, h9⟩ := ih rfl hk
    have hne : x.tag ≠ r.tag := fun h => h2 (by simp [refTags, ← h])
    obtain ⟨p, hp⟩ := step_foreign (w := false) hne h4
    exact ⟨_, access_of hp (by rw [nextTag_ne hne]; exact h8), .skip h1 h2 h3 h4 h9⟩

/-- Reading through the reference before the last one. -/
theorem chain_under₂ {root k cur c st} (h : Chain root k cur c st) : ∀ {r r' c'}, c = r :: r' :: c' →
    r.protect = false → r.kind ≠ .used → k ≠ .used →
    ∃ st', access false r'.tag st = some st' ∧ Chain root k cur c st' := by
  induction h with
  | root => intro r r' c' h; cases h
  | @here k r c x st h1 h2 h3 h4 h5 h6 h7 ih =>
    intro r0 r' c' hc hp hk hk'; cases hc
    obtain ⟨st', h8, h9⟩ := chain_under h7 rfl hk
    have hne : x.tag ≠ r'.tag := fun h => h4 (by simp [refTags, ← h, h1])
    exact ⟨_, access_of (fits_foreign h3 hk hne (h2.trans hp)) (by rw [nextTag_ne hne]; exact h8),
      .here h1 h2 h3 h4 h5 (by rw [access_tags h8]; exact h6) h9⟩
  | @hidden k cur r c x st h1 h2 h3 h4 h5 _ ih =>
    intro r0 r' c' hc hp hk hk'; cases hc
    obtain ⟨st', h8, h9⟩ := ih rfl hp hk hk'
    have hne : x.tag ≠ r'.tag := fun h => h2 (by simp [refTags, ← h, h1])
    exact ⟨_, access_of (fits_foreign h5 hk' hne h4) (by rw [nextTag_ne hne]; exact h8),
      .hidden h1 h2 h3 h4 h5 h9⟩
  | @skip k cur r c x st h1 h2 h3 h4 _ ih =>
    intro r0 r' c' hc hp hk hk'; cases hc
    obtain ⟨st', h8, h9⟩ := ih rfl hp hk hk'
    have hne : x.tag ≠ r'.tag := fun h => h2 (by simp [refTags, ← h])
    obtain ⟨p, hp⟩ := step_foreign (w := false) hne h4
    exact ⟨_, access_of hp (by rw [nextTag_ne hne]; exact h8), .skip h1 h2 h3 h4 h9⟩

theorem write_skip {t x st} (h : (write t st).isSome) (hx : x.tag ≠ t) (hp : x.protect = false) :
    (write t (x :: st)).isSome := by
  obtain ⟨h1, h2⟩ := write_isSome.1 h
  obtain ⟨st', h2⟩ := Option.isSome_iff_exists.1 h2
  obtain ⟨p, hs⟩ := step_foreign (w := true) hx hp
  exact write_isSome.2 ⟨by simp [h1], Option.isSome_iff_exists.2
    ⟨_, access_of hs (by rw [nextTag_ne hx]; exact h2)⟩⟩

theorem chain_nil {root k cur st} (h : Chain root k cur [] st) : (write root st).isSome := by
  cases h; assumption

theorem chain_root {root k cur c st} (h : Chain root k cur c st) : ∀ {r}, c = [r] →
    r.protect = false → (write root st).isSome := by
  induction h with
  | root => intro r h; cases h
  | here h1 h2 h3 h4 h5 h6 h7 ih =>
    intro r' hc hp; cases hc
    exact write_skip (chain_nil h7) (h1 ▸ h5) (h2.trans hp)
  | hidden h1 h2 h3 h4 h5 _ ih => intro r' hc hp; cases hc; exact write_skip (ih rfl hp) (h1 ▸ h3) h4
  | skip h1 h2 h3 h4 _ ih => intro r' hc hp; cases hc; exact write_skip (ih rfl hp) h3 h4

theorem chain_pop {root k cur c st} (h : Chain root k cur c st) : ∀ {r r' c'} (k'), c = r :: r' :: c' →
    r.protect = false → Chain root k' r'.tag (r' :: c') st := by
  induction h with
  | root => intro r r' c' k' h; cases h
  | here h1 h2 h3 h4 h5 h6 h7 ih =>
    intro r0 r' c' k' hc hp; cases hc
    refine .skip (fun h => h4 ?_) (h1 ▸ h4) (h1 ▸ h5) (h2.trans hp) (chain_restart h7 k' rfl)
    simp [refTags, ← h, h1]
  | hidden h1 h2 h3 h4 h5 _ ih =>
    intro r0 r' c' k' hc hp; cases hc
    have h2' : _ ∉ refTags (r' :: c') := fun h => h2 (List.mem_cons_of_mem _ h)
    refine .skip (fun h => h2' ?_) (h1 ▸ h2') (h1 ▸ h3) h4 (ih k' rfl hp)
    simp [refTags, ← h, h1]
  | skip h1 h2 h3 h4 _ ih =>
    intro r0 r' c' k' hc hp; cases hc
    have h2' : _ ∉ refTags (r' :: c') := fun h => h2 (List.mem_cons_of_mem _ h)
    refine .skip (fun h => h2' ?_) h2' h3 h4 (ih k' rfl hp)
    simp [refTags, ← h]

theorem chain_kind {root k k' cur c st} (h : Chain root k cur c st) (hk : k ≠ .used) :
    Chain root k' cur c st := by
  induction h with
  | root h => exact .root h
  | here h1 h2 h3 h4 h5 h6 h7 => exact .here h1 h2 h3 h4 h5 h6 h7
  | hidden h1 h2 h3 h4 h5 _ ih =>
    exact .hidden h1 h2 h3 h4 (by rename_i k _ _ _ _ _ _; cases k <;> cases k' <;> simp_all [fits]) (ih hk)
  | skip h1 h2 h3 h4 _ ih => exact .skip h1 h2 h3 h4 (ih hk)

/-- Forget a reference that was never written through: it is now one in between. -/
theorem chain_hide₁ {root k cur c st} (h : Chain root k cur c st) : ∀ {t k' r' c'},
    c = ⟨t, k', false⟩ :: r' :: c' → k' ≠ .used → Chain root k cur (r' :: c') st := by
  induction h with
  | root => intro t k' r' c' h; cases h
  | @here k r c x st h1 h2 h3 h4 h5 h6 h7 ih =>
    intro t k' r' c' hc hk; cases hc
    have : fits k x.perm := by cases k <;> cases k' <;> simp_all [fits]
    refine .hidden h1 h4 h5 h2 this ?_
    exact chain_kind h7 hk
  | hidden h1 h2 h3 h4 h5 _ ih =>
    intro t k' r' c' hc hk; cases hc
    exact .hidden h1 (fun h => h2 (List.mem_cons_of_mem _ h)) h3 h4 h5 (ih rfl hk)
  | skip h1 h2 h3 h4 _ ih =>
    intro t k' r' c' hc hk; cases hc
    exact .skip h1 (fun h => h2 (List.mem_cons_of_mem _ h)) h3 h4 (ih rfl hk)

/-- A reference that was never written through becomes a raw pointer with the same tag. -/
theorem chain_change {root k cur c st} (h : Chain root k cur c st) : ∀ {t k' k'' p c'},
    c = ⟨t, k', p⟩ :: c' → k' ≠ .used → Chain root k cur (⟨t, k'', p⟩ :: c') st := by
  induction h with
  | root => intro t k' k'' p c' h; cases h
  | @here k r c x st h1 h2 h3 h4 h5 h6 h7 ih =>
    intro t k' k'' p c' hc hk; cases hc
    have : fits k'' x.perm := by cases k' <;> cases k'' <;> simp_all [fits]
    exact .here (r := ⟨t, k'', p⟩) h1 h2 this h4 h5 h6 (chain_kind h7 hk)
  | hidden h1 h2 h3 h4 h5 _ ih => intro t k' k'' p c' hc hk; cases hc; exact .hidden h1 h2 h3 h4 h5 (ih rfl hk)
  | skip h1 h2 h3 h4 _ ih => intro t k' k'' p c' hc hk; cases hc; exact .skip h1 h2 h3 h4 (ih rfl hk)

theorem chain_use {root k cur c st} (h : Chain root k cur c st) :
    Chain root .used cur (c.map Ref.use) st := by
  induction h with
  | root h => exact .root h
  | @here k r c x st h1 h2 h3 h4 h5 h6 _ ih =>
    exact .here (r := r.use) h1 h2 (fits_used h3) (by rw [use_tags]; exact h4) h5 h6 ih
  | hidden h1 h2 h3 h4 h5 _ ih =>
    exact .hidden h1 (by rw [← List.map_cons, use_tags]; exact h2) h3 h4 (fits_used h5) ih
  | skip h1 h2 h3 h4 _ ih =>
    exact .skip h1 (by rw [← List.map_cons, use_tags]; exact h2) h3 h4 ih

theorem chain_use₁ {root k cur c st} (h : Chain root k cur c st) : ∀ {t k' p},
    c = [⟨t, k', p⟩] → Chain root k cur [⟨t, .used, p⟩] st := by
  induction h with
  | root => intro t k' p h; cases h
  | @here k r c x st h1 h2 h3 h4 h5 h6 h7 ih =>
    intro t k' p hc; cases hc
    refine .here (r := ⟨t, .used, p⟩) h1 h2 (fits_used h3) h4 h5 h6 ?_
    have := chain_nil h7
    revert h7; generalize x.parent = y; intro h7
    cases h7; exact .root this
  | hidden h1 h2 h3 h4 h5 _ ih => intro t k' p hc; cases hc; exact .hidden h1 h2 h3 h4 h5 (ih rfl)
  | skip h1 h2 h3 h4 _ ih => intro t k' p hc; cases hc; exact .skip h1 h2 h3 h4 (ih rfl)

theorem chain_hide {root k cur c st} (h : Chain root k cur c st) : ∀ {r t k' r' c'},
    c = r :: ⟨t, k', false⟩ :: r' :: c' → k' ≠ .used → Chain root k cur (r :: r' :: c') st := by
  induction h with
  | root => intro r t k' r' c' h; cases h
  | here h1 h2 h3 h4 h5 h6 h7 ih =>
    intro r t k' r' c' hc hk; cases hc
    exact .here h1 h2 h3 (fun h => h4 (List.mem_cons_of_mem _ h)) h5 h6 (chain_hide₁ h7 rfl hk)
  | hidden h1 h2 h3 h4 h5 _ ih =>
    intro r t k' r' c' hc hk; cases hc
    refine .hidden h1 (fun h => h2 ?_) h3 h4 h5 (ih rfl hk)
    simp only [refTags, List.map_cons, List.mem_cons] at h ⊢
    rcases h with h | h
    · exact .inl h
    · exact .inr (.inr h)
  | skip h1 h2 h3 h4 _ ih =>
    intro r t k' r' c' hc hk; cases hc
    refine .skip h1 (fun h => h2 ?_) h3 h4 (ih rfl hk)
    simp only [refTags, List.map_cons, List.mem_cons] at h ⊢
    rcases h with h | h
    · exact .inl h
    · exact .inr (.inr h)

@[simp] theorem unprotect_cons (t : Tag) (x : Node) (st : List Node) :
    unprotect t (x :: st) = (if x.tag = t then { x with protect := false } else x) :: unprotect t st := rfl

theorem unprotect_tags (t : Tag) (st : List Node) : tags (unprotect t st) = tags st := by
  induction st with
  | nil => rfl
  | cons x st ih => simp only [unprotect_cons, tags_cons, ih]; split <;> rfl

theorem below_unprotect {t n st} (hn : Below n st) : Below n (unprotect t st) := by
  unfold Below; rw [unprotect_tags]; exact hn

theorem below_read {t n st st'} (h : read t st = some st') (hn : Below n st) : Below n st' := by
  unfold Below; rw [access_tags (read_eq.1 h).2]; exact hn

theorem below_write {t n st st'} (h : write t st = some st') (hn : Below n st) : Below n st' := by
  unfold Below; rw [access_tags (write_eq.1 h).2]; exact hn

theorem unprotect_id {t : Tag} {st : List Node} (h : t ∉ tags st) : unprotect t st = st := by
  induction st with
  | nil => rfl
  | cons x st ih =>
    simp only [tags_cons, List.mem_cons, not_or] at h
    simp only [unprotect_cons, ih h.2, if_neg (fun h' => h.1 (Eq.symm h'))]

theorem chain_unprotect {root k cur c st} (h : Chain root k cur c st) : ∀ {r c'}, c = r :: c' →
    Chain root k cur ({ r with protect := false } :: c') (unprotect r.tag st) := by
  induction h with
  | root => intro r c' h; cases h
  | @here k r c x st h1 h2 h3 h4 h5 h6 h7 ih =>
    intro r' c' hc; cases hc
    simp only [unprotect_cons, h1, if_true, unprotect_id h6]
    exact .here (r := { r with protect := false }) rfl rfl h3 h4 h5 h6 h7
  | @hidden k cur r c x st h1 h2 h3 h4 h5 _ ih =>
    intro r' c' hc; cases hc
    have hne : x.tag ≠ r.tag := fun h => h2 (by simp [refTags, ← h, h1])
    simp only [unprotect_cons, if_neg hne]
    exact .hidden h1 h2 h3 h4 h5 (ih rfl)
  | @skip k cur r c x st h1 h2 h3 h4 _ ih =>
    intro r' c' hc; cases hc
    have hne : x.tag ≠ r.tag := fun h => h2 (by simp [refTags, ← h])
    simp only [unprotect_cons, if_neg hne]
    exact .skip h1 h2 h3 h4 (ih rfl)

theorem chain_unprotect₂ {root k cur c st} (h : Chain root k cur c st) : ∀ {r r' c'},
    c = r :: r' :: c' →
    Chain root k cur (r :: { r' with protect := false } :: c') (unprotect r'.tag st) := by
  induction h with
  | root => intro r r' c' h; cases h
  | @here k r c x st h1 h2 h3 h4 h5 h6 h7 ih =>
    intro r0 r' c' hc; cases hc
    have hne : x.tag ≠ r'.tag := fun h => h4 (by simp [refTags, ← h, h1])
    simp only [unprotect_cons, if_neg hne]
    exact .here h1 h2 h3 h4 h5 (by rw [unprotect_tags]; exact h6) (chain_unprotect h7 rfl)
  | @hidden k cur r c x st h1 h2 h3 h4 h5 _ ih =>
    intro r0 r' c' hc; cases hc
    have hne : x.tag ≠ r'.tag := fun h => h2 (by simp [refTags, ← h, h1])
    simp only [unprotect_cons, if_neg hne]
    exact .hidden h1 h2 h3 h4 h5 (ih rfl)
  | @skip k cur r c x st h1 h2 h3 h4 _ ih =>
    intro r0 r' c' hc; cases hc
    have hne : x.tag ≠ r'.tag := fun h => h2 (by simp [refTags, ← h])
    simp only [unprotect_cons, if_neg hne]
    exact .skip h1 h2 h3 h4 (ih rfl)

/-- The node of the last reference. -/
theorem chain_find {root k cur c st} (h : Chain root k cur c st) : ∀ {r c'}, c = r :: c' →
    ∃ x, st.find? (·.tag == r.tag) = some x ∧ x.protect = r.protect ∧ fits r.kind x.perm := by
  induction h with
  | root => intro r c' h; cases h
  | here h1 h2 h3 h4 h5 h6 h7 ih =>
    intro r' c' hc; cases hc
    exact ⟨_, by simp [h1], h2, h3⟩
  | @hidden k cur r c x st h1 h2 h3 h4 h5 _ ih =>
    intro r' c' hc; cases hc
    have hne : x.tag ≠ r.tag := fun h => h2 (by simp [refTags, ← h, h1])
    obtain ⟨y, hy⟩ := ih rfl
    exact ⟨y, by simp [hne, hy.1], hy.2⟩
  | @skip k cur r c x st h1 h2 h3 h4 _ ih =>
    intro r' c' hc; cases hc
    have hne : x.tag ≠ r.tag := fun h => h2 (by simp [refTags, ← h])
    obtain ⟨y, hy⟩ := ih rfl
    exact ⟨y, by simp [hne, hy.1], hy.2⟩

theorem chain_find₂ {root k cur c st} (h : Chain root k cur c st) : ∀ {r r' c'}, c = r :: r' :: c' →
    ∃ x, st.find? (·.tag == r'.tag) = some x ∧ x.protect = r'.protect ∧ fits r'.kind x.perm := by
  induction h with
  | root => intro r r' c' h; cases h
  | @here k r c x st h1 h2 h3 h4 h5 h6 h7 ih =>
    intro r0 r' c' hc; cases hc
    have hne : x.tag ≠ r'.tag := fun h => h4 (by simp [refTags, ← h, h1])
    obtain ⟨y, hy⟩ := chain_find h7 rfl
    exact ⟨y, by simp [hne, hy.1], hy.2⟩
  | @hidden k cur r c x st h1 h2 h3 h4 h5 _ ih =>
    intro r0 r' c' hc; cases hc
    have hne : x.tag ≠ r'.tag := fun h => h2 (by simp [refTags, ← h, h1])
    obtain ⟨y, hy⟩ := ih rfl
    exact ⟨y, by simp [hne, hy.1], hy.2⟩
  | @skip k cur r c x st h1 h2 h3 h4 _ ih =>
    intro r0 r' c' hc; cases hc
    have hne : x.tag ≠ r'.tag := fun h => h2 (by simp [refTags, ← h])
    obtain ⟨y, hy⟩ := ih rfl
    exact ⟨y, by simp [hne, hy.1], hy.2⟩

theorem release_reserved {t st st' x} (hf : st.find? (·.tag == t) = some x) (hp : x.protect = true)
    (hx : x.perm = .reserved false) (hr : read t st = some st') :
    release t st = some (unprotect t st') := by
  simp [release, hf, hp, hx, hr]

theorem release_frozen {t st st' x} (hf : st.find? (·.tag == t) = some x) (hp : x.protect = true)
    (hx : x.perm = .frozen) (hr : read t st = some st') :
    release t st = some (unprotect t st') := by
  simp [release, hf, hp, hx, hr]

theorem release_active {t st st' x} (hf : st.find? (·.tag == t) = some x) (hp : x.protect = true)
    (hx : x.perm = .active) (hr : write t st = some st') :
    release t st = some (unprotect t st') := by
  simp [release, hf, hp, hx, hr]

theorem release_free {t st x} (hf : st.find? (·.tag == t) = some x) (hp : x.protect = false) :
    release t st = some (unprotect t st) := by
  simp [release, hf, hp]

/-- The references in use. -/
def Main (root : Tag) : List Ref → List Node → Prop
  | [], _ => False
  | r :: c, st => Chain root .new r.tag (r :: c) st

theorem main_read {root r c st} (h : Main root (r :: c) st) :
    ∃ st', read r.tag st = some st' ∧ Main root (r :: c) st' := by
  obtain ⟨st', h1, h2⟩ := chain_read h
  exact ⟨st', read_eq.2 ⟨(chain_tags h).2.1, h1⟩, h2⟩

theorem main_write {root r c st} (h : Main root (r :: c) st) :
    ∃ st', write r.tag st = some st' ∧ Main root ((r :: c).map Ref.use) st' := by
  obtain ⟨st', h1, h2⟩ := chain_write h
  exact ⟨st', write_eq.2 ⟨(chain_tags h).2.1, h1⟩, chain_restart h2 _ rfl⟩

theorem main_under {root r r' c st} (h : Main root (r :: r' :: c) st) (hp : r.protect = false)
    (hk : r.kind ≠ .used) : ∃ st', read r'.tag st = some st' ∧ Main root (r :: r' :: c) st' := by
  obtain ⟨st', h1, h2⟩ := chain_under₂ h rfl hp hk (by simp)
  exact ⟨st', read_eq.2 ⟨(chain_tags h).2.2 _ (by simp [refTags]), h1⟩, h2⟩

theorem main_push {root r c n st} {p : Bool} (h : Main root (r :: c) st) (hn : Below n st) :
    Main root (⟨n, .new, p⟩ :: r :: c) (⟨n, r.tag, .reserved false, p⟩ :: st) := by
  have hb := below_not_mem hn
  obtain ⟨h1, _, h2⟩ := chain_tags h
  exact .here rfl rfl rfl (fun hc => hb (h2 _ hc)) (fun hc => hb (by simp only at hc; exact hc ▸ h1)) hb h

theorem main_fresh {root r c st} {x : Node} (h : Main root (r :: c) st) (hp : x.protect = false)
    (hx : x.tag ∉ tags st) : Main root (r :: c) (x :: st) := by
  obtain ⟨h1, h2, h3⟩ := chain_tags h
  exact .skip (fun hc => hx (hc ▸ h2)) (fun hc => hx (h3 _ hc)) (fun hc => hx (hc ▸ h1)) hp h

/-! ### Shared references -/

structure Stable (b : Tag) (B : List Node → Prop) : Prop where
  read : ∀ {st}, B st → ∃ st', read b st = some st' ∧ B st'
  push : ∀ {x st}, B st → x.protect = false → x.tag ∉ tags st → B (x :: st)

inductive Side (b : Tag) (B : List Node → Prop) : List Tag → List Tag → List Node → Prop
  | base {P st} : Stable b B → B st → Side b B [] P st
  | push {T P T' P' x st} : Side b B T P st → x.perm = .frozen → x.tag ∉ tags st →
      (x.parent = b ∨ x.parent ∈ T) →
      (x.protect = true → x.tag ∈ P') → P ⊆ P' → T' ⊆ x.tag :: T → Side b B T' P' (x :: st)

theorem side_mono {b B T T' P P' st} (h : Side b B T P st) (hT : T' ⊆ T) (hP : P ⊆ P') :
    Side b B T' P' st := by
  cases h with
  | base hs hB => cases List.subset_nil.1 hT; exact .base hs hB
  | push h h1 h2 h0 h3 h4 h5 =>
    exact .push h h1 h2 h0 (fun hp => hP (h3 hp)) (fun x hx => hP (h4 hx)) (fun x hx => h5 (hT hx))

theorem side_stable {b B T P st} (h : Side b B T P st) : Stable b B := by
  induction h with
  | base hs => exact hs
  | push _ _ _ _ _ _ _ ih => exact ih

theorem side_end {b B T P st} (h : Side b B T P st) : P = [] → B st := by
  induction h with
  | base hs hB => exact fun _ => hB
  | push h h1 h2 h0 h3 h4 h5 ih =>
    rintro rfl
    have := ih (List.subset_nil.1 h4)
    refine (side_stable h).push this ?_ h2
    cases hp : Node.protect _ with
    | false => rfl
    | true => exact absurd (h3 hp) (by simp)

theorem side_read {b B T P st} (h : Side b B T P st) : ∀ {t}, t = b ∨ t ∈ T →
    ∃ st', read t st = some st' ∧ Side b B T P st' := by
  induction h with
  | base hs hB =>
    intro t ht
    rcases ht with rfl | ht
    · obtain ⟨st', h1, h2⟩ := hs.read hB
      exact ⟨st', h1, .base hs h2⟩
    · simp at ht
  | @push T P T' P' x st h h1 h2 h0 h3 h4 h5 ih =>
    intro t ht
    by_cases hx : x.tag = t
    · obtain ⟨st', hr, hs⟩ := ih h0
      obtain ⟨_, hr⟩ := read_eq.1 hr
      have : step false t x = some x.perm := by simp [step, hx, h1, childRead]
      refine ⟨x :: st', read_eq.2 ⟨by simp [hx], access_of this (by rw [nextTag_eq hx]; exact hr)⟩, ?_⟩
      exact .push hs h1 (by rw [access_tags hr]; exact h2) h0 h3 h4 h5
    · obtain ⟨st', hr, hs⟩ := ih (t := t) (by
        rcases ht with ht | ht
        · exact .inl ht
        · rcases List.mem_cons.1 (h5 ht) with h' | h'
          · exact absurd h'.symm hx
          · exact .inr h')
      obtain ⟨htag, hr⟩ := read_eq.1 hr
      have : step false t x = some x.perm := by simp [step, hx, h1, foreignRead]
      refine ⟨x :: st', read_eq.2 ⟨by simp [htag], access_of this (by rw [nextTag_ne hx]; exact hr)⟩, ?_⟩
      exact .push hs h1 (by rw [access_tags hr]; exact h2) h0 h3 h4 h5

theorem side_find {b B T P st} (h : Side b B T P st) : ∀ {t}, t ∈ T →
    ∃ x, st.find? (·.tag == t) = some x ∧ x.perm = .frozen := by
  induction h with
  | base hs hB => intro t ht; simp at ht
  | @push T P T' P' x st h h1 h2 h0 h3 h4 h5 ih =>
    intro t ht
    by_cases hx : x.tag = t
    · exact ⟨x, by simp [hx], h1⟩
    · obtain ⟨y, hy⟩ := ih (t := t) (by
        rcases List.mem_cons.1 (h5 ht) with h' | h'
        · exact absurd h'.symm hx
        · exact h')
      exact ⟨y, by simp [hx, hy.1], hy.2⟩

theorem filter_subset {P P' : List Tag} {t : Tag} (h : P ⊆ P') :
    P.filter (· ≠ t) ⊆ P'.filter (· ≠ t) := by
  intro x hx
  simp only [List.mem_filter] at hx ⊢
  exact ⟨h hx.1, hx.2⟩

theorem side_absent {b B T P st} (h : Side b B T P st) : ∀ {t}, t ∉ tags st →
    Side b B T (P.filter (· ≠ t)) st := by
  induction h with
  | base hs hB => exact fun _ => .base hs hB
  | push h h1 h2 h0 h3 h4 h5 ih =>
    intro t ht
    simp only [tags_cons, List.mem_cons, not_or] at ht
    exact .push (ih ht.2) h1 h2 h0 (fun hp => by simp [h3 hp, Ne.symm ht.1]) (filter_subset h4) h5

theorem side_unprotect {b B T P st} (h : Side b B T P st) : ∀ {t}, t ∈ T →
    Side b B T (P.filter (· ≠ t)) (unprotect t st) := by
  induction h with
  | base hs hB => intro t ht; simp at ht
  | @push T P T' P' x st h h1 h2 h0 h3 h4 h5 ih =>
    intro t ht
    by_cases hx : x.tag = t
    · have hid : unprotect t st = st := unprotect_id (hx ▸ h2)
      simp only [unprotect_cons, hx, if_true, hid]
      exact .push (side_absent h (hx ▸ h2)) h1 (hx ▸ h2) h0 (by simp) (filter_subset h4)
        (by simpa [hx] using h5)
    · simp only [unprotect_cons, if_neg hx]
      have htT : t ∈ T := by
        rcases List.mem_cons.1 (h5 ht) with h' | h'
        · exact absurd h'.symm hx
        · exact h'
      exact .push (ih htT) h1 (by rw [unprotect_tags]; exact h2) h0 (fun hp => by simp [h3 hp, hx])
        (filter_subset h4) h5

theorem side_release {b B T P n st t} (h : Side b B T P st) (hn : Below n st) (ht : t ∈ T) :
    ∃ st', release t st = some st' ∧ Side b B T (P.filter (· ≠ t)) st' ∧ Below n st' := by
  obtain ⟨x, hf, hx⟩ := side_find h ht
  cases hp : x.protect with
  | false => exact ⟨_, release_free hf hp, side_unprotect h ht, below_unprotect hn⟩
  | true =>
    obtain ⟨st', hr, hs⟩ := side_read h (.inr ht)
    exact ⟨_, release_frozen hf hp hx hr, side_unprotect hs ht, below_unprotect (below_read hr hn)⟩

def laws : Laws rules where
  Below := Below
  Main := Main
  Stable := Stable
  Side := Side
  below_mono := below_mono
  main_enter {root n st} p h hn := by
    obtain ⟨h1, h2⟩ := write_isSome.1 h
    obtain ⟨st', h3, h4⟩ := access_read_of_write h2
    have hr : read root st = some st' := read_eq.2 ⟨h1, h3⟩
    have hb := below_read hr hn
    refine ⟨⟨n, root, .reserved false, p⟩ :: st', by simp only [rules]; rw [hr]; rfl, ?_,
      below_cons (below_mono hb (Nat.le_succ n)) (Nat.lt_succ_self n)⟩
    have hnot := below_not_mem hb
    have htag : root ∈ tags st' := by rw [access_tags h3]; exact h1
    refine .here rfl rfl rfl (by simp [refTags]) (fun hc => hnot ?_) hnot
      (.root (write_isSome.2 ⟨htag, h4⟩))
    simp only at hc
    exact hc ▸ htag
  main_write h hn := by
    obtain ⟨st', h1, h2⟩ := main_write h
    exact ⟨st', h1, h2, below_write h1 hn⟩
  main_read h hn := by
    obtain ⟨st', h1, h2⟩ := main_read h
    exact ⟨st', h1, h2, below_read h1 hn⟩
  main_unique {root r c n st} p h hn := by
    obtain ⟨st', h1, h2⟩ := main_read h
    have hb := below_read h1 hn
    exact ⟨⟨n, r.tag, .reserved false, p⟩ :: st', by simp [rules, h1], main_push h2 hb,
      below_cons (below_mono hb (Nat.le_succ n)) (Nat.lt_succ_self n)⟩
  main_raw {root t c n st} h hn := by
    obtain ⟨x, hf, hp, hx⟩ := chain_find h rfl
    obtain ⟨st', h1, h2⟩ := main_read h
    refine ⟨st, unprotect t st', ?_, release_reserved hf hp hx h1, ?_,
      below_mono (below_unprotect (below_read h1 hn)) (Nat.le_succ n)⟩
    · simp only [rules, has_iff.2 (chain_tags h).2.1, if_true]
    · have := chain_unprotect h2 rfl
      exact chain_change this rfl (by simp)
  main_raw_unique {root t r c n st} h hn := by
    obtain ⟨x, hf, hp, hx⟩ := chain_find h rfl
    obtain ⟨st', h1, h2⟩ := main_read h
    have hb' : Below (n + 1) st' := below_mono (below_read h1 hn) (Nat.le_succ n)
    have hm := main_push (p := false) h2 hb'
    have hb : Below (n + 2) (⟨n + 1, t, .reserved false, false⟩ :: st') :=
      below_cons (below_mono hb' (Nat.le_succ _)) (Nat.lt_succ_self (n + 1))
    obtain ⟨y, kf, kp, ky⟩ := chain_find₂ hm rfl
    obtain ⟨st3, k1, k2⟩ := main_under hm rfl (by simp)
    refine ⟨st, by simp only [rules, has_iff.2 (chain_tags h).2.1, if_true], below_mono hn (Nat.le_succ n),
      ⟨_, release_reserved hf hp hx h1, chain_pop (chain_unprotect h2 rfl) _ rfl rfl,
        below_unprotect hb'⟩,
      ⟨n + 1, t, .reserved false, false⟩ :: st', _, by simp only [rules]; rw [h1]; rfl, hb,
      release_reserved kf kp ky k1, chain_hide (chain_unprotect₂ k2 rfl) rfl (by simp),
      below_unprotect (below_read k1 hb)⟩
  main_two {root r c n st} h hn := by
    obtain ⟨st', h1, h2⟩ := main_read h
    have hb := below_read h1 hn
    exact ⟨⟨n, r.tag, .reserved false, false⟩ :: st', by simp [rules, h1], chain_change (main_push h2 hb) rfl (by simp),
      below_cons (below_mono hb (Nat.le_succ n)) (Nat.lt_succ_self n)⟩
  main_two_root {root n st} h hn := by
    obtain ⟨h1, h2⟩ := write_isSome.1 h
    obtain ⟨st', h3, h4⟩ := access_read_of_write h2
    have hr : read root st = some st' := read_eq.2 ⟨h1, h3⟩
    have hb := below_read hr hn
    refine ⟨⟨n, root, .reserved false, false⟩ :: st', by simp only [rules]; rw [hr]; rfl, ?_,
      below_cons (below_mono hb (Nat.le_succ n)) (Nat.lt_succ_self n)⟩
    have hnot := below_not_mem hb
    have htag : root ∈ tags st' := by rw [access_tags h3]; exact h1
    refine .here rfl rfl (by simp [fits]) (by simp [refTags]) (fun hc => hnot ?_) hnot
      (.root (write_isSome.2 ⟨htag, h4⟩))
    simp only at hc
    exact hc ▸ htag
  main_release {root t k c n st} h hn := by
    obtain ⟨x, hf, hp, hx⟩ := chain_find h rfl
    have hx' := fits_used hx
    rcases hx' with hx' | hx'
    · obtain ⟨st', h1, h2⟩ := main_read h
      exact ⟨_, release_reserved hf hp hx' h1, chain_restart (chain_use (chain_unprotect h2 rfl)) _ rfl,
        below_unprotect (below_read h1 hn)⟩
    · obtain ⟨st', h1, h2⟩ := main_write h
      exact ⟨_, release_active hf hp hx' h1, chain_unprotect h2 rfl, below_unprotect (below_write h1 hn)⟩
  main_release_new {root t c n st} h hn := by
    obtain ⟨x, hf, hp, hx⟩ := chain_find h rfl
    obtain ⟨st', h1, h2⟩ := main_read h
    exact ⟨_, release_reserved hf hp hx h1, chain_unprotect h2 rfl, below_unprotect (below_read h1 hn)⟩
  main_release_under {root u t c n st} h hn := by
    obtain ⟨x, hf, hp, hx⟩ := chain_find₂ h rfl
    obtain ⟨st', h1, h2⟩ := main_under h rfl (by simp)
    exact ⟨_, release_reserved hf hp hx h1, chain_unprotect₂ h2 rfl, below_unprotect (below_read h1 hn)⟩
  main_hide h hk := chain_hide h rfl hk
  main_pop h hp := chain_pop h _ rfl hp
  main_relax h := chain_restart (chain_use h) _ rfl
  main_root h hp := chain_root h rfl hp
  stable_main := { read := main_read, push := main_fresh }
  stable_under := { read := fun h => main_under h rfl (by simp), push := main_fresh }
  stable_read {t} := {
    read := fun {st} h => by
      obtain ⟨st', hr⟩ := Option.isSome_iff_exists.1 h
      obtain ⟨h1, h2⟩ := read_eq.1 hr
      exact ⟨st', hr, read_isSome.2 ⟨by rw [access_tags h2]; exact h1, access_read_again h2⟩⟩
    push := fun {x st} h hp hi => by
      obtain ⟨h1, h2⟩ := read_isSome.1 h
      obtain ⟨st', h2⟩ := Option.isSome_iff_exists.1 h2
      have hne : x.tag ≠ t := fun h => hi (h ▸ h1)
      obtain ⟨p, hs⟩ := step_foreign (w := false) hne hp
      exact read_isSome.2 ⟨by simp [h1], Option.isSome_iff_exists.2
        ⟨_, access_of hs (by rw [nextTag_ne hne]; exact h2)⟩⟩ }
  stable_root {t} := {
    read := fun {st} h => by
      obtain ⟨h1, h2⟩ := write_isSome.1 h
      obtain ⟨st', h3, h4⟩ := access_read_of_write h2
      exact ⟨st', read_eq.2 ⟨h1, h3⟩, write_isSome.2 ⟨by rw [access_tags h3]; exact h1, h4⟩⟩
    push := fun {x st} h hp hi => by
      obtain ⟨h1, h2⟩ := write_isSome.1 h
      obtain ⟨st', h2⟩ := Option.isSome_iff_exists.1 h2
      have hne : x.tag ≠ t := fun h => hi (h ▸ h1)
      obtain ⟨p, hs⟩ := step_foreign (w := true) hne hp
      exact write_isSome.2 ⟨by simp [h1], Option.isSome_iff_exists.2
        ⟨_, access_of hs (by rw [nextTag_ne hne]; exact h2)⟩⟩ }
  side_start hs hB := .base hs hB
  side_end h := side_end h rfl
  side_read h hn ht := by
    obtain ⟨st', h1, h2⟩ := side_read h ht
    exact ⟨st', h1, h2, below_read h1 hn⟩
  side_shared {b B T P n st t} p h hn ht := by
    obtain ⟨st', h1, h2⟩ := side_read h ht
    have hb : Below n st' := below_read h1 hn
    refine ⟨⟨n, t, .frozen, p⟩ :: st', by simp [rules, h1], ?_,
      below_cons (below_mono hb (Nat.le_succ n)) (Nat.lt_succ_self n)⟩
    refine .push h2 rfl (below_not_mem hb) ht (fun hp => ?_) ?_ (fun _ h => h)
    · simp only at hp; simp [hp]
    · intro x hx; split
      · exact List.mem_cons_of_mem _ hx
      · exact hx
  side_release h hn ht := side_release h hn ht
  side_mono := side_mono
  root_write {root n st} h hn := by
    obtain ⟨st', hw⟩ := Option.isSome_iff_exists.1 h
    obtain ⟨h1, h2⟩ := write_eq.1 hw
    exact ⟨st', hw, write_isSome.2 ⟨by rw [access_tags h2]; exact h1, access_write_again h2⟩, below_write hw hn⟩
  alloc_write {t} := by simp [rules, write, has, access, childWrite]
  alloc_read {t} := by simp [rules, read, has, access, childRead]
  alloc_below {t} := by
    intro x hx
    simp only [rules, tags, List.map_cons, List.map_nil, List.mem_singleton] at hx
    exact hx ▸ Nat.lt_succ_self t

end Tree
end Verif.Borrow
