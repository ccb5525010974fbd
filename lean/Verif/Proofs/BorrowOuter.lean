import Verif.Model.BorrowOuter
import Verif.Proofs.Borrow

/-!
# The laws for Tree Borrows with Miri's end of a protector
-/

namespace Verif.Borrow.Tree
open Borrow

theorem accessOuter_here {w t x st} (h : x.tag = t) :
    accessOuter w t (x :: st) = access w t (x :: st) := by
  rw [accessOuter, if_pos h]

/-- A node in front of `t` is left alone, or sees an access from elsewhere. -/
theorem accessOuter_cons {w t x st st'} {p : Perm} (h : x.tag ≠ t) (hs : step w t x = some p)
    (ha : accessOuter w t st = some st') :
    accessOuter w t (x :: st) = some (x :: st') ∨
    accessOuter w t (x :: st) = some ({ x with perm := p } :: st') := by
  rw [accessOuter, if_neg h]
  split
  · exact .inl (by rw [ha]; rfl)
  · right
    cases w <;> simp_all [step]

theorem accessOuter_tags {w t} : ∀ {st st'}, accessOuter w t st = some st' → tags st' = tags st := by
  intro st
  induction st with
  | nil => intro st' h; cases h; rfl
  | cons x st ih =>
    intro st' h
    rw [accessOuter] at h
    split at h
    · exact access_tags h
    · split at h
      · cases ha : accessOuter w t st with
        | none => rw [ha] at h; cases h
        | some st1 => rw [ha] at h; cases h; simp [ih ha]
      · cases ha : accessOuter w t st with
        | none => cases w <;> simp [ha] at h
        | some st1 =>
          have := ih ha
          cases w
          · simp only [ha, Bool.false_eq_true, if_false, Option.bind_eq_bind, Option.bind_some] at h
            obtain ⟨p, _, h⟩ := Option.bind_eq_some_iff.1 h
            cases h
            simp [this]
          · simp only [ha, if_true, Option.bind_eq_bind, Option.bind_some] at h
            obtain ⟨p, _, h⟩ := Option.bind_eq_some_iff.1 h
            cases h
            simp [this]

theorem below_accessOuter {w t n st st'} (h : accessOuter w t st = some st') (hn : Below n st) :
    Below n st' := by
  unfold Below; rw [accessOuter_tags h]; exact hn

theorem chain_readOuter {root k cur c st} (h : Chain root k cur c st) : ∀ {r c'}, c = r :: c' →
    k ≠ .used → ∃ st', accessOuter false r.tag st = some st' ∧ Chain root k cur c st' := by
  induction h with
  | root => intro r c' h; cases h
  | here h1 h2 h3 h4 h5 h6 h7 ih =>
    intro r' c' hc hk; cases hc
    obtain ⟨st', h8, h9⟩ := chain_read h7
    exact ⟨_, (accessOuter_here h1).trans (access_of (fits_read h3 h1) (by rw [nextTag_eq h1]; exact h8)),
      .here h1 h2 h3 h4 h5 (by rw [access_tags h8]; exact h6) h9⟩
  | @hidden k cur r c x st h1 h2 h3 h4 h5 _ ih =>
    intro r' c' hc hk; cases hc
    obtain ⟨st', h8, h9⟩ := ih rfl hk
    have hne : x.tag ≠ r.tag := fun h => h2 (by simp [refTags, ← h, h1])
    refine ⟨x :: st', ?_, .hidden h1 h2 h3 h4 h5 h9⟩
    rcases accessOuter_cons hne (fits_foreign h5 hk hne h4) h8 with h | h <;> exact h
  | @skip k cur r c x st h1 h2 h3 h4 _ ih =>
    intro r' c' hc hk; cases hc
    obtain ⟨st', h8, h9⟩ := ih rfl hk
    have hne : x.tag ≠ r.tag := fun h => h2 (by simp [refTags, ← h])
    obtain ⟨p, hp⟩ := step_foreign (w := false) hne h4
    rcases accessOuter_cons hne hp h8 with h | h
    · exact ⟨_, h, .skip h1 h2 h3 h4 h9⟩
    · exact ⟨_, h, .skip h1 h2 h3 h4 h9⟩

/-- Reading through the reference before the last one. -/
theorem chain_readOuter₂ {root k cur c st} (h : Chain root k cur c st) : ∀ {r r' c'}, c = r :: r' :: c' →
    r.protect = false → r.kind ≠ .used → k ≠ .used →
    ∃ st', accessOuter false r'.tag st = some st' ∧ Chain root k cur c st' := by
  induction h with
  | root => intro r r' c' h; cases h
  | @here k r c x st h1 h2 h3 h4 h5 h6 h7 ih =>
    intro r0 r' c' hc hp hk hk'; cases hc
    obtain ⟨st', h8, h9⟩ := chain_readOuter h7 rfl hk
    have hne : x.tag ≠ r'.tag := fun h => h4 (by simp [refTags, ← h, h1])
    refine ⟨x :: st', ?_, .here h1 h2 h3 h4 h5 (by rw [accessOuter_tags h8]; exact h6) h9⟩
    rcases accessOuter_cons hne (fits_foreign h3 hk hne (h2.trans hp)) h8 with h | h <;> exact h
  | @hidden k cur r c x st h1 h2 h3 h4 h5 _ ih =>
    intro r0 r' c' hc hp hk hk'; cases hc
    obtain ⟨st', h8, h9⟩ := ih rfl hp hk hk'
    have hne : x.tag ≠ r'.tag := fun h => h2 (by simp [refTags, ← h, h1])
    refine ⟨x :: st', ?_, .hidden h1 h2 h3 h4 h5 h9⟩
    rcases accessOuter_cons hne (fits_foreign h5 hk' hne h4) h8 with h | h <;> exact h
  | @skip k cur r c x st h1 h2 h3 h4 _ ih =>
    intro r0 r' c' hc hp hk hk'; cases hc
    obtain ⟨st', h8, h9⟩ := ih rfl hp hk hk'
    have hne : x.tag ≠ r'.tag := fun h => h2 (by simp [refTags, ← h])
    obtain ⟨p, hp⟩ := step_foreign (w := false) hne h4
    rcases accessOuter_cons hne hp h8 with h | h
    · exact ⟨_, h, .skip h1 h2 h3 h4 h9⟩
    · exact ⟨_, h, .skip h1 h2 h3 h4 h9⟩

/-- Writing through the last reference, when nothing that is still in use was made from it. -/
theorem chain_writeOuter {root k cur c st} (h : Chain root k cur c st) : ∀ {r c'}, c = r :: c' → cur = r.tag →
    ∃ st', accessOuter true r.tag st = some st' ∧ Chain root .used cur (c.map Ref.use) st' := by
  induction h with
  | root => intro r c' h; cases h
  | here h1 h2 h3 h4 h5 h6 h7 ih =>
    intro r' c' hc _; cases hc
    obtain ⟨st', h8, h9⟩ := chain_write (.here (k := .new) h1 h2 h3 h4 h5 h6 h7)
    exact ⟨st', (accessOuter_here h1).trans h8, h9⟩
  | hidden h1 h2 h3 h4 h5 _ ih =>
    intro r' c' hc he; cases hc
    exact absurd (by simp [refTags, he]) h2
  | @skip k cur r c x st h1 h2 h3 h4 _ ih =>
    intro r' c' hc he; cases hc
    obtain ⟨st', h8, h9⟩ := ih rfl he
    have hne : x.tag ≠ r.tag := he ▸ h1
    have h2' : x.tag ∉ refTags ((r :: c).map Ref.use) := by rw [use_tags]; exact h2
    obtain ⟨p, hp⟩ := step_foreign (w := true) hne h4
    rcases accessOuter_cons hne hp h8 with h | h
    · exact ⟨_, h, .skip h1 h2' h3 h4 h9⟩
    · exact ⟨_, h, .skip h1 h2' h3 h4 h9⟩

theorem main_readOuter {root r c st} (h : Main root (r :: c) st) :
    ∃ st', accessOuter false r.tag st = some st' ∧ Main root (r :: c) st' :=
  chain_readOuter h rfl (by simp)

theorem main_readOuter₂ {root r r' c st} (h : Main root (r :: r' :: c) st) (hp : r.protect = false)
    (hk : r.kind ≠ .used) :
    ∃ st', accessOuter false r'.tag st = some st' ∧ Main root (r :: r' :: c) st' :=
  chain_readOuter₂ h rfl hp hk (by simp)

theorem main_writeOuter {root r c st} (h : Main root (r :: c) st) :
    ∃ st', accessOuter true r.tag st = some st' ∧ Main root ((r :: c).map Ref.use) st' := by
  obtain ⟨st', h1, h2⟩ := chain_writeOuter h rfl rfl
  exact ⟨st', h1, chain_restart h2 _ rfl⟩

theorem side_readOuter {b B T P st} (h : Side b B T P st) : ∀ {t}, t ∈ T →
    ∃ st', accessOuter false t st = some st' ∧ Side b B T P st' := by
  induction h with
  | base hs hB => intro t ht; simp at ht
  | @push T P T' P' x st h h1 h2 h0 h3 h4 h5 ih =>
    intro t ht
    by_cases hx : x.tag = t
    · obtain ⟨st', hr, hs⟩ := side_read (.push h h1 h2 h0 h3 h4 h5) (.inr ht)
      exact ⟨st', (accessOuter_here hx).trans (read_eq.1 hr).2, hs⟩
    · obtain ⟨st', hr, hs⟩ := ih (t := t) (by
        rcases List.mem_cons.1 (h5 ht) with h' | h'
        · exact absurd h'.symm hx
        · exact h')
      have : step false t x = some x.perm := by simp [step, hx, h1, foreignRead]
      refine ⟨x :: st', ?_, .push hs h1 (by rw [accessOuter_tags hr]; exact h2) h0 h3 h4 h5⟩
      rcases accessOuter_cons hx this hr with h | h <;> exact h

theorem releaseOuter_read {t st st' x} (hf : st.find? (·.tag == t) = some x) (hp : x.protect = true)
    (hx : x.perm = .reserved false ∨ x.perm = .frozen) (hr : accessOuter false t st = some st') :
    releaseOuter t st = some (unprotect t st') := by
  rcases hx with hx | hx <;> simp [releaseOuter, hf, hp, hx, hr]

theorem releaseOuter_active {t st st' x} (hf : st.find? (·.tag == t) = some x) (hp : x.protect = true)
    (hx : x.perm = .active) (hr : accessOuter true t st = some st') :
    releaseOuter t st = some (unprotect t st') := by
  simp [releaseOuter, hf, hp, hx, hr]

theorem releaseOuter_free {t st x} (hf : st.find? (·.tag == t) = some x) (hp : x.protect = false) :
    releaseOuter t st = some (unprotect t st) := by
  simp [releaseOuter, hf, hp]

def lawsOuter : Laws rulesOuter where
  Below := Below
  Main := Main
  Stable := Stable
  Side := Side
  below_mono := laws.below_mono
  main_enter := laws.main_enter
  main_write := laws.main_write
  main_read := laws.main_read
  main_unique := laws.main_unique
  main_raw {root t c n st} h hn := by
    obtain ⟨x, hf, hp, hx⟩ := chain_find h rfl
    obtain ⟨st', h1, h2⟩ := main_readOuter h
    refine ⟨st, unprotect t st', ?_, releaseOuter_read hf hp (.inl hx) h1, ?_,
      below_mono (below_unprotect (below_accessOuter h1 hn)) (Nat.le_succ n)⟩
    · simp only [rulesOuter, rules, has_iff.2 (chain_tags h).2.1, if_true]
    · exact chain_change (chain_unprotect h2 rfl) rfl (by simp)
  main_raw_unique {root t r c n st} h hn := by
    obtain ⟨x, hf, hp, hx⟩ := chain_find h rfl
    obtain ⟨st', h1, h2⟩ := main_read h
    obtain ⟨st'', o1, o2⟩ := main_readOuter h
    have hb' : Below (n + 1) st' := below_mono (below_read h1 hn) (Nat.le_succ n)
    have hm := main_push (p := false) h2 hb'
    have hb : Below (n + 2) (⟨n + 1, t, .reserved false, false⟩ :: st') :=
      below_cons (below_mono hb' (Nat.le_succ _)) (Nat.lt_succ_self (n + 1))
    obtain ⟨y, kf, kp, ky⟩ := chain_find₂ hm rfl
    obtain ⟨st3, k1, k2⟩ := main_readOuter₂ hm rfl (by simp)
    refine ⟨st, by simp only [rulesOuter, rules, has_iff.2 (chain_tags h).2.1, if_true],
      below_mono hn (Nat.le_succ n),
      ⟨_, releaseOuter_read hf hp (.inl hx) o1, chain_pop (chain_unprotect o2 rfl) _ rfl rfl,
        below_unprotect (below_mono (below_accessOuter o1 hn) (Nat.le_succ n))⟩,
      ⟨n + 1, t, .reserved false, false⟩ :: st', _, by simp only [rulesOuter, rules]; rw [h1]; rfl, hb,
      releaseOuter_read kf kp (.inl ky) k1, chain_hide (chain_unprotect₂ k2 rfl) rfl (by simp),
      below_unprotect (below_accessOuter k1 hb)⟩
  main_two := laws.main_two
  main_two_root := laws.main_two_root
  main_release {root t k c n st} h hn := by
    obtain ⟨x, hf, hp, hx⟩ := chain_find h rfl
    rcases fits_used hx with hx' | hx'
    · obtain ⟨st', h1, h2⟩ := main_readOuter h
      exact ⟨_, releaseOuter_read hf hp (.inl hx') h1, chain_restart (chain_use (chain_unprotect h2 rfl)) _ rfl,
        below_unprotect (below_accessOuter h1 hn)⟩
    · obtain ⟨st', h1, h2⟩ := main_writeOuter h
      exact ⟨_, releaseOuter_active hf hp hx' h1, chain_unprotect h2 rfl,
        below_unprotect (below_accessOuter h1 hn)⟩
  main_release_new {root t c n st} h hn := by
    obtain ⟨x, hf, hp, hx⟩ := chain_find h rfl
    obtain ⟨st', h1, h2⟩ := main_readOuter h
    exact ⟨_, releaseOuter_read hf hp (.inl hx) h1, chain_unprotect h2 rfl,
      below_unprotect (below_accessOuter h1 hn)⟩
  main_release_under {root u t c n st} h hn := by
    obtain ⟨x, hf, hp, hx⟩ := chain_find₂ h rfl
    obtain ⟨st', h1, h2⟩ := main_readOuter₂ h rfl (by simp)
    exact ⟨_, releaseOuter_read hf hp (.inl hx) h1, chain_unprotect₂ h2 rfl,
      below_unprotect (below_accessOuter h1 hn)⟩
  main_hide := laws.main_hide
  main_pop := laws.main_pop
  main_relax := laws.main_relax
  main_root := laws.main_root
  stable_main := laws.stable_main
  stable_under := laws.stable_under
  stable_read := laws.stable_read
  stable_root := laws.stable_root
  side_start := laws.side_start
  side_end := laws.side_end
  side_read := laws.side_read
  side_shared := laws.side_shared
  side_release {b B T P n st t} h hn ht := by
    obtain ⟨x, hf, hx⟩ := side_find h ht
    cases hp : x.protect with
    | false => exact ⟨_, releaseOuter_free hf hp, side_unprotect h ht, below_unprotect hn⟩
    | true =>
      obtain ⟨st', hr, hs⟩ := side_readOuter h ht
      exact ⟨_, releaseOuter_read hf hp (.inr hx) hr, side_unprotect hs ht,
        below_unprotect (below_accessOuter hr hn)⟩
  side_mono := laws.side_mono
  root_write := laws.root_write
  alloc_write := laws.alloc_write
  alloc_read := laws.alloc_read
  alloc_below := laws.alloc_below

end Verif.Borrow.Tree
