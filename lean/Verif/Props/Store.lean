import Verif.Model.Store
import Verif.Props.History

/-! # Programs with several strings -/

namespace Verif
open Spec ArrayString

variable {N : Nat} [ValidCapacity N] {ε α : Type}

/-- Every variable holds its text. -/
def Store (x : Nat → ArrayString N) (cs : Nat → List Char) : Prop := ∀ i, Holds (x i) (cs i)

omit [ValidCapacity N] in
theorem Store.assign {x : Nat → ArrayString N} {cs : Nat → List Char} (h : Store x cs) {s : ArrayString N}
    {w : List Char} (i : Nat) (hs : Holds s w) : Store (assignVar x i s) (assignVar cs i w) := by
  intro k
  unfold assignVar
  split
  · exact hs
  · exact h k

theorem drainIter_cons {d : Drain N} {c : Char} {w : List Char} (h : Holds d.inner (c :: w)) :
    ∃ d', drainIter d = .item c d' ∧ Holds d'.inner w := by
  obtain ⟨d', e, h'⟩ := drain_next_cons (ε := Error) ValidCapacity.le h
  exact ⟨d', by simp [drainIter, e], h'⟩

theorem drainIter_nil {d : Drain N} (h : Holds d.inner []) : drainIter d = .done d := by
  simp [drainIter, drain_next_nil (ε := Error) ValidCapacity.le h]

theorem drainIter_yields (w : List Char) (d : Drain N) (h : Holds d.inner w) :
    ∃ d', Yields drainIter d w d' ∧ Holds d'.inner [] := by
  induction w generalizing d with
  | nil => exact ⟨d, .nil _, h⟩
  | cons c w ih =>
    obtain ⟨d1, e, h1⟩ := drainIter_cons h
    obtain ⟨d2, hy, h2⟩ := ih d1 h1
    exact ⟨d2, .cons e hy, h2⟩

/-- C25: collecting what is left of a `Drain` gives a string with the same text. -/
theorem C25_collect (w : List Char) (d : Drain N) (h : Holds d.inner w) :
    ∃ (t : ArrayString N) (d' : Drain N), (fromIterChars drainIter d : Res ε _) = .ok (t, d') ∧ Holds t w := by
  obtain ⟨d', hy, h'⟩ := drainIter_yields w d h
  obtain ⟨t, e, ht⟩ := fromCharsTruncate_done (N := N) (ε := ε) ValidCapacity.le hy (drainIter_nil h') h.le
  exact ⟨t, d', e, ht⟩

/-- C50: one statement does to the variables what the specification says. -/
theorem C50_statement (t : Stmt) (ht : t.Ok) (x : Nat → ArrayString N) (cs : Nat → List Char) (h : Store x cs) :
    (execStmt t x).1 = (stmt N cs t).1.toRes ∧ Store (execStmt t x).2 (stmt N cs t).2 := by
  cases t with
  | call i op =>
    obtain ⟨h1, h2⟩ := exec_step op ht (x i) (cs i) (h i)
    exact ⟨h1, h.assign i h2⟩
  | copy i j => exact ⟨rfl, h.assign j (h i)⟩
  | eq i j =>
    simp only [execStmt, M.bind_apply, M.self_apply, M.lift_apply, (C28_eq _ _ _ _ (h i) (h j)).1]
    exact ⟨rfl, h⟩
  | cmp i j =>
    simp only [execStmt, M.bind_apply, M.self_apply, M.lift_apply, (C30_cmp _ _ _ _ (h i) (h j)).1]
    exact ⟨rfl, h⟩
  | push i j =>
    have e : execStmt (.push i j) x = onVar i (exec (.tryPushStr (cs j))) x := by
      simp only [execStmt, M.bind_apply, M.self_apply, M.lift_apply, (h j).asStr]
      rfl
    rw [e]
    obtain ⟨h1, h2⟩ := exec_step (.tryPushStr (cs j)) trivial (x i) (cs i) (h i)
    exact ⟨h1, h.assign i h2⟩
  | splitOff i at_ j =>
    have hx : ∀ (e : Error), splitOff at_ (x i) = (.err e, x i) →
        execStmt (.splitOff i at_ j) x = (.err (Kind.kind e), x) := by
      intro e he
      have : assignVar x i (x i) = x := by funext k; unfold assignVar; split <;> simp_all
      simp [execStmt, M.bind_apply, onVar, he, this]
    simp only [stmt]
    split
    next h1 =>
      rw [hx _ (splitOff_oob (h i) h1)]
      exact ⟨rfl, h⟩
    next h1 =>
      split
      next p q hc =>
        obtain ⟨hpq, rfl⟩ := cutAt_some.1 hc
        obtain ⟨s', t, e, hs', ht⟩ := splitOff_ok ValidCapacity.le (hpq ▸ h i)
        simp only [execStmt, M.bind_apply, onVar, M.mapErr_apply, e, Res.mapErr_ok, setVar]
        exact ⟨rfl, (h.assign i hs').assign j ht⟩
      next hc =>
        rw [hx _ (splitOff_utf8 (h i) (by omega) (cutAt_none.1 hc))]
        exact ⟨rfl, h⟩
  | drain i r j =>
    have hx : ∀ (e : Error), drain r (x i) = (.err e, x i) →
        execStmt (.drain i r j) x = (.err (Kind.kind e), x) := by
      intro e he
      have : assignVar x i (x i) = x := by funext k; unfold assignVar; split <;> simp_all
      simp [execStmt, M.bind_apply, onVar, he, this]
    obtain ⟨h1, h2, h3⟩ := C24_drain (ε := Error) (x i) (cs i) r (h i)
    simp only [stmt]
    split
    next hi =>
      split
      next p m q hc =>
        obtain ⟨hpq, ha, hb⟩ := cut2_some.1 hc
        obtain ⟨s', d, e, hs', _, hd⟩ := h3 p m q hpq ha hb
        obtain ⟨t, d', e2, ht⟩ := C25_collect (ε := Failure) m d hd
        simp only [execStmt, M.bind_apply, onVar, M.mapErr_apply, e, Res.mapErr_ok, setVar, M.lift_apply, e2]
        exact ⟨rfl, (h.assign i hs').assign j ht⟩
      next hc =>
        have hn := cut2_none.1 hc
        have : ¬ RangeBoundary r (cs i) := fun hb => hn ⟨hi.1, hb.1, hb.2⟩
        rw [hx _ (h2 hi this)]
        exact ⟨rfl, h⟩
    next hi =>
      rw [hx _ (h1 hi)]
      exact ⟨rfl, h⟩

/-- C50: any program with several strings, copying them, comparing them and moving text between them,
behaves as the same program on plain texts (which cannot share anything). -/
theorem C50_refinement (ts : List Stmt) (hts : ∀ t ∈ ts, t.Ok) (x : Nat → ArrayString N) (cs : Nat → List Char)
    (h : Store x cs) :
    (runStmts ts x).1 = (stmts N ts cs).1.map Answer.toRes ∧ Store (runStmts ts x).2 (stmts N ts cs).2 := by
  induction ts generalizing x cs with
  | nil => exact ⟨rfl, h⟩
  | cons t ts ih =>
    obtain ⟨h1, h2⟩ := C50_statement t (hts t (List.mem_cons_self ..)) x cs h
    obtain ⟨h3, h4⟩ := ih (fun o ho => hts o (List.mem_cons_of_mem _ ho)) _ _ h2
    simp only [runStmts, stmts]
    exact ⟨by rw [List.map_cons, h1, h3], h4⟩

example : Store (fun i => if i = 1 then sample else ArrayString.new) (fun i => if i = 1 then ['h', 'é', ' '] else []) := by
  intro i
  dsimp only
  split
  · exact sample_holds
  · exact holds_new

/-- Two copies that go separate ways. -/
example : (stmts 8 [.call 0 (.tryPushStr ['h', 'é']), .copy 0 1, .eq 0 1, .call 0 .pop, .eq 0 1, .push 1 0,
      .splitOff 1 1 2, .cmp 1 0, .drain 2 (.range 0 2) 3, .call 3 .asStr, .call 2 .asStr] fun _ => []).1 =
    [.returned .unit, .returned .unit, .returned (.bool true), .returned (.optChar (some 'é')), .returned (.bool false),
     .returned .unit, .returned .unit, .returned (.ordering .eq), .returned .unit, .returned (.str (utf8 ['é'])),
     .returned (.str (utf8 ['h']))] := by decide

omit [ValidCapacity N] in
theorem assignVar_ne {β : Type} {x : Nat → β} {i k : Nat} {a : β} (h : k ≠ i) : assignVar x i a k = x k := by
  simp [assignVar, h]

omit [ValidCapacity N] in
/-- C50: a statement leaves the variables it does not assign exactly as they were, stale bytes
included, whatever they contain and however it ends. -/
theorem C50_frame (t : Stmt) (x : Nat → ArrayString N) (k : Nat) (hk : k ∉ t.writes) : (execStmt t x).2 k = x k := by
  cases t with
  | call i op => exact assignVar_ne (by simpa [Stmt.writes] using hk)
  | copy i j => exact assignVar_ne (by simpa [Stmt.writes] using hk)
  | eq i j =>
    simp only [execStmt, M.bind_apply, M.self_apply, M.lift_apply]
    cases (x i).eq (x j) <;> rfl
  | cmp i j =>
    simp only [execStmt, M.bind_apply, M.self_apply, M.lift_apply]
    cases (x i).cmp (x j) <;> rfl
  | push i j =>
    simp only [execStmt, M.bind_apply, M.self_apply, M.lift_apply]
    cases (x j).asStr with
    | ok b => exact assignVar_ne (by simpa [Stmt.writes] using hk)
    | _ => rfl
  | splitOff i at_ j =>
    simp [Stmt.writes] at hk
    simp only [execStmt, M.bind_apply, onVar]
    rcases M.mapErr Kind.kind (splitOff at_) (x i) with ⟨r, s'⟩
    cases r with
    | ok t => exact (assignVar_ne hk.2).trans (assignVar_ne hk.1)
    | _ => exact assignVar_ne hk.1
  | drain i r j =>
    simp [Stmt.writes] at hk
    simp only [execStmt, M.bind_apply, onVar]
    rcases M.mapErr Kind.kind (drain r) (x i) with ⟨r, s'⟩
    cases r with
    | ok d =>
      simp only [M.lift_apply]
      cases (fromIterChars drainIter d : Res Failure (ArrayString N × Drain N)) with
      | ok t => exact (assignVar_ne hk.2).trans (assignVar_ne hk.1)
      | _ => exact assignVar_ne hk.1
    | _ => exact assignVar_ne hk.1

example : (1 : Nat) ∉ (Stmt.splitOff 0 2 3).writes := by decide

omit [ValidCapacity N] in
/-- C50: whatever a program does to the original, a copy it never assigns stays as it was. -/
theorem C50_independent (i j : Nat) (ts : List Stmt) (hj : ∀ t ∈ ts, j ∉ t.writes) (x : Nat → ArrayString N) :
    (runStmts (.copy i j :: ts) x).2 j = x i := by
  have key : ∀ (ts : List Stmt), (∀ t ∈ ts, j ∉ t.writes) → ∀ x : Nat → ArrayString N, (runStmts ts x).2 j = x j := by
    intro ts
    induction ts with
    | nil => intro _ x; rfl
    | cons t ts ih =>
      intro h x
      simp only [runStmts]
      rw [ih (fun t ht => h t (List.mem_cons_of_mem _ ht)), C50_frame t x j (h t (List.mem_cons_self ..))]
  have := key ts hj (execStmt (.copy i j) x).2
  simp only [runStmts]
  rw [this]
  simp [execStmt, M.bind_apply, setVar, assignVar, ArrayString.clone]

/-- C50: a clone equals its original; so does the clone of a `Drain`, which then yields the same
characters. -/
theorem C50_clone (s : ArrayString N) (cs : List Char) (hs : Holds s cs) :
    (s.clone.eq s : Res ε Bool) = .ok true ∧ s.clone = s ∧
    ((⟨s⟩ : Drain N).clone.eq ⟨s⟩ : Res ε Bool) = .ok true ∧
    ∀ es, ∃ d1 d2 : Drain N, (drainEnds es : M (Drain N) ε _) ⟨s⟩ = (.ok (takeEnds es cs).1, d1) ∧
      (drainEnds es : M (Drain N) ε _) (⟨s⟩ : Drain N).clone = (.ok (takeEnds es cs).1, d2) := by
  refine ⟨?_, rfl, ?_, fun es => ?_⟩
  · simpa using (C28_eq (ε := ε) s.clone s cs cs hs hs).1
  · simpa [Drain.clone] using (C28_eq (ε := ε) s.clone s cs cs hs hs).2.2.2
  · obtain ⟨d1, e, -⟩ := C25_drain_deque (ε := ε) es ⟨s⟩ cs hs
    exact ⟨d1, d1, e, e⟩

example : Holds sample.clone ['h', 'é', ' '] := sample_holds

end Verif
