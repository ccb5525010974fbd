import Verif.Proofs.Threads

/-!
# A thread that is not interrupted

The steps of one thread only, and the calls of one thread, against `Model/BorrowOps.lean`.
-/

namespace Verif.Borrow
open Spec
namespace Reader
variable {R : Rules} {N : Nat} {ε ε' α β : Type}

theorem bind_ub {σ : Type} {m : M σ ε α} {f : α → M σ ε β} {w : σ} (h : (m w).1 = .ub) : (m >>= f) w = (.ub, (m w).2) := by
  show M.bind m f w = _
  unfold M.bind
  generalize m w = x at *
  rcases x with ⟨r, w'⟩
  simp only at h
  subst h
  rfl

theorem ok_or_ub {m : M (World R N) ε α} {w : World R N} (h : (∃ a, (m w).1 = .ok a) ∨ (m w).1 = .ub) :
    (∃ a w', m w = (.ok a, w')) ∨ ∃ w', m w = (.ub, w') := by
  rcases h with ⟨a, h⟩ | h
  · exact .inl ⟨a, _, by rw [← h]⟩
  · exact .inr ⟨_, by rw [← h]⟩

theorem readEach_ub {t : Tag} {lo n : Nat} {p : Reader N ε α} {w : World R N}
    (h : ∃ l, lo ≤ l ∧ l < lo + n ∧ R.read t (w.mem l) = none) : ((readEach t lo n p).run w).1 = .ub := by
  induction n generalizing lo w with
  | zero => obtain ⟨l, h1, h2, _⟩ := h; omega
  | succ n ih =>
    unfold readEach
    rcases ok_or_ub (m := Borrow.readAt t lo (lo + 1)) (touch_ends (ε := ε) w) with ⟨_, w', e⟩ | ⟨w', e⟩
    · rw [run, bind_ok e]
      apply ih
      obtain ⟨l, h1, h2, h3⟩ := h
      have h4 := touch_some (ε := ε) (f := R.read t) (w := w) (lo := lo) (hi := lo + 1) (by
        show ((Borrow.readAt t lo (lo + 1) : M (World R N) ε Unit) w).1 ≠ .ub
        rw [e]; simp)
      have h5 : l ≠ lo := by
        rintro rfl
        have := h4 l (Nat.le_refl _) (by omega)
        rw [h3] at this
        cases this
      have h6 : (Borrow.readAt t lo (lo + 1) : M (World R N) ε Unit) w = _ := touch_ok h4
      rw [e] at h6
      obtain rfl := (Prod.mk.inj h6).2
      refine ⟨l, by omega, by omega, ?_⟩
      show R.read t (if lo ≤ l ∧ l < lo + 1 then _ else w.mem l) = none
      rw [if_neg (by omega)]
      exact h3
    · rw [run, bind_ub (by rw [e])]

theorem touch_ub {lo hi : Nat} {f : R.St → Option R.St} {w : World R N}
    (h : ((touch lo hi f : M (World R N) ε Unit) w).1 = .ub) : ∃ l, lo ≤ l ∧ l < hi ∧ f (w.mem l) = none := by
  refine Classical.byContradiction fun hn => ?_
  rw [touch_ok fun l h1 h2 => ?_] at h
  · cases h
  · cases e : f (w.mem l) with
    | some _ => rfl
    | none => exact absurd ⟨l, h1, h2, e⟩ hn

theorem bytewise_ub {p : Reader N ε α} {w : World R N} (h : (p.run w).1 = .ub) : (p.bytewise.run w).1 = .ub := by
  induction p generalizing w with
  | done r => exact h
  | retag t lo hi protect k ih =>
    rcases ok_or_ub (m := Borrow.retagShared t lo hi protect) (retag_ends (ε := ε) w) with ⟨u, w', e⟩ | ⟨w', e⟩
    · rw [run, bind_ok e] at h
      rw [bytewise, run, bind_ok e]
      exact ih u h
    · rw [bytewise, run, bind_ub (by rw [e])]
  | read t lo hi k ih =>
    rw [bytewise]
    rcases ok_or_ub (m := Borrow.readAt t lo hi) (touch_ends (ε := ε) w) with ⟨u, w', e⟩ | ⟨w', e⟩
    · rw [run, bind_ok e] at h
      have h1 := touch_some (ε := ε) (f := R.read t) (w := w) (lo := lo) (hi := hi) (by
        show ((Borrow.readAt t lo hi : M (World R N) ε Unit) w).1 ≠ .ub
        rw [e]; simp)
      rw [run_readEach fun l h2 h3 => h1 l h2 (by omega)]
      have h6 : (Borrow.readAt t lo hi : M (World R N) ε Unit) w = _ := touch_ok h1
      rw [e] at h6
      obtain rfl := (Prod.mk.inj h6).2
      by_cases hl : lo ≤ hi
      · rw [Nat.add_sub_of_le hl]
        exact ih h
      · refine ih ?_
        rw [← h]
        congr 3
        funext l
        rw [if_neg (by omega), if_neg (by omega)]
    · obtain ⟨l, h1, h2, h3⟩ := touch_ub (ε := ε) (f := R.read t) (w := w) (lo := lo) (hi := hi) (by
        show ((Borrow.readAt t lo hi : M (World R N) ε Unit) w).1 = .ub
        rw [e])
      exact readEach_ub ⟨l, h1, by omega, h3⟩
  | release t lo hi k ih =>
    rcases ok_or_ub (m := Borrow.release t lo hi) (touch_ends (ε := ε) w) with ⟨u, w', e⟩ | ⟨w', e⟩
    · rw [run, bind_ok e] at h
      rw [bytewise, run, bind_ok e]
      exact ih h
    · rw [bytewise, run, bind_ub (by rw [e])]
  | look k ih =>
    rw [run, bind_ok (m := Borrow.get) (w := w) rfl] at h
    rw [bytewise, run, bind_ok (m := Borrow.get) (w := w) rfl]
    exact ih _ h

/-- What cannot fail ends alike, whatever the errors are. -/
theorem alike {m : M (World R N) Empty α} {m' : M (World R N) ε α} (h : M.mapErr nofun m = m') (w : World R N)
    (hm : (∃ a, (m w).1 = .ok a) ∨ (m w).1 = .ub) :
    (∃ a w', m w = (.ok a, w') ∧ m' w = (.ok a, w')) ∨ ∃ w', m w = (.ub, w') ∧ m' w = (.ub, w') := by
  subst h
  unfold M.mapErr
  rcases ok_or_ub hm with ⟨a, w', e⟩ | ⟨w', e⟩
  · exact .inl ⟨a, w', e, by rw [e]; rfl⟩
  · exact .inr ⟨w', e, by rw [e]; rfl⟩

theorem bind_onEnd {f : Res ε α → Reader N ε' β} {γ : Type} {m : M (World R N) Empty γ} {m' : M (World R N) ε γ}
    {m'' : M (World R N) ε' γ} {k : γ → Reader N ε α} {w : World R N}
    (ih : ∀ (a : γ) (w : World R N), ((k a).onEnd f).run w = (f ((k a).run w).1).run ((k a).run w).2)
    (hf : f .ub = .done .ub) (h : M.mapErr nofun m = m') (h' : M.mapErr nofun m = m'')
    (hm : (∃ a, (m w).1 = .ok a) ∨ (m w).1 = .ub) :
    (m'' >>= fun a => ((k a).onEnd f).run) w = (f ((m' >>= fun a => (k a).run) w).1).run ((m' >>= fun a => (k a).run) w).2 := by
  rcases alike h w hm with ⟨a, w', e, e'⟩ | ⟨w', e, e'⟩ <;> rcases alike h' w hm with ⟨a', w'', e2, e''⟩ | ⟨w'', e2, e''⟩
  · rw [e] at e2
    obtain ⟨e3, rfl⟩ := Prod.mk.inj e2
    obtain rfl := Res.ok.inj e3
    rw [bind_ok e', bind_ok e'']
    exact ih _ _
  · rw [e] at e2; cases (Prod.mk.inj e2).1
  · rw [e] at e2; cases (Prod.mk.inj e2).1
  · rw [e] at e2
    obtain ⟨_, rfl⟩ := Prod.mk.inj e2
    rw [bind_ub (by rw [e'']), bind_ub (by rw [e']), hf, e', e'']
    rfl

theorem run_onEnd {p : Reader N ε α} {f : Res ε α → Reader N ε' β} (hf : f .ub = .done .ub) {w : World R N} :
    (p.onEnd f).run w = (f (p.run w).1).run (p.run w).2 := by
  induction p generalizing w with
  | done r => rfl
  | retag t lo hi protect k ih =>
    exact bind_onEnd (m := Borrow.retagShared t lo hi protect) (fun a w => ih a) hf mapErr_retag mapErr_retag (retag_ends w)
  | read t lo hi k ih =>
    exact bind_onEnd (m := Borrow.readAt t lo hi) (fun _ w => ih) hf mapErr_touch mapErr_touch (touch_ends w)
  | release t lo hi k ih =>
    exact bind_onEnd (m := Borrow.release t lo hi) (fun _ w => ih) hf mapErr_touch mapErr_touch (touch_ends w)
  | look k ih => exact ih _

end Reader

section
variable {R : Rules} {N : Nat} {α : Type} {ts : List (Reader N Empty α)} {w : World R N}

/-- Steps of one thread only. -/
theorem interleave_one {i : Nat} {p : Reader N Empty α} (h : ts[i]? = some p) :
    ∃ n, interleave ts w (List.replicate n i) = (ts.set i (.done (p.run w).1), (p.run w).2) := by
  have hi : i < ts.length := (List.getElem?_eq_some_iff.1 h).1
  have next : ∀ {ts : List (Reader N Empty α)} {w : World R N} {p p' : Reader N Empty α} {w' : World R N}
      {r : Res Empty α × World R N}, i < ts.length →
      ts[i]? = some p → p.step w = (p', w') →
      (∃ n, interleave (ts.set i p') w' (List.replicate n i) = ((ts.set i p').set i (.done r.1), r.2)) →
      ∃ n, interleave ts w (List.replicate n i) = (ts.set i (.done r.1), r.2) := by
    intro ts w p p' w' r hi h e ⟨n, hn⟩
    refine ⟨n + 1, ?_⟩
    rw [List.set_set] at hn
    rw [← hn, List.replicate_succ, interleave, turn, h]
    simp only [e]
  induction p generalizing ts w with
  | done r =>
    refine ⟨0, ?_⟩
    obtain ⟨_, h⟩ := List.getElem?_eq_some_iff.1 h
    show (ts, w) = (ts.set i (.done r), w)
    rw [← h, List.set_getElem_self]
  | retag t lo hi' protect k ih =>
    rcases Reader.ok_or_ub (m := retagShared t lo hi' protect) (Reader.retag_ends (ε := Empty) w) with ⟨u, w', e⟩ | ⟨w', e⟩
    · refine next hi h (p' := k u) (w' := w') (by rw [Reader.step, e]) ?_
      rw [Reader.run, bind_ok e]
      exact ih u (by simp [hi]) (by simpa using hi)
    · refine next hi h (p' := .done .ub) (w' := w') (by rw [Reader.step, e]) ⟨0, ?_⟩
      rw [Reader.run, Reader.bind_ub (by rw [e]), e, List.set_set]
      rfl
  | read t lo hi' k ih =>
    rcases Reader.ok_or_ub (m := readAt t lo hi') (Reader.touch_ends (ε := Empty) w) with ⟨u, w', e⟩ | ⟨w', e⟩
    · refine next hi h (p' := k) (w' := w') (by rw [Reader.step, e]) ?_
      rw [Reader.run, bind_ok e]
      exact ih (by simp [hi]) (by simpa using hi)
    · refine next hi h (p' := .done .ub) (w' := w') (by rw [Reader.step, e]) ⟨0, ?_⟩
      rw [Reader.run, Reader.bind_ub (by rw [e]), e, List.set_set]
      rfl
  | release t lo hi' k ih =>
    rcases Reader.ok_or_ub (m := release t lo hi') (Reader.touch_ends (ε := Empty) w) with ⟨u, w', e⟩ | ⟨w', e⟩
    · refine next hi h (p' := k) (w' := w') (by rw [Reader.step, e]) ?_
      rw [Reader.run, bind_ok e]
      exact ih (by simp [hi]) (by simpa using hi)
    · refine next hi h (p' := .done .ub) (w' := w') (by rw [Reader.step, e]) ⟨0, ?_⟩
      rw [Reader.run, Reader.bind_ub (by rw [e]), e, List.set_set]
      rfl
  | look k ih =>
    refine next hi h (p' := k w.str) (w' := w) rfl ?_
    exact ih w.str (by simp [hi]) (by simpa using hi)

/-- A thread alone. -/
theorem run_thread {self arg : Tag} {ops : List Op} (hops : ∀ op ∈ ops, op.shared = true)
    (h : ∀ r ∈ (runOps self arg ops w).1, r ≠ .ub ∧ r ≠ .diverge) :
    (thread self arg ops).run w = (.ok (runOps self arg ops w).1, (runOps self arg ops w).2) := by
  induction ops generalizing w with
  | nil => rfl
  | cons op ops ih =>
    obtain ⟨p, e, hp⟩ := Reader.run_exec (N := N) (self := self) (arg := arg) (hops op (List.mem_cons_self ..))
    have h1 : (exec self arg op w).1 ≠ .ub ∧ (exec self arg op w).1 ≠ .diverge := h _ (List.mem_cons_self ..)
    have h2 := ih (w := (exec self arg op w).2) (fun o ho => hops o (List.mem_cons_of_mem _ ho))
      fun r hr => h r (List.mem_cons_of_mem _ hr)
    have h3 : p.bytewise.run w = exec self arg op w := by
      rw [← hp R] at h1 ⊢
      exact Reader.run_bytewise h1.1
    unfold thread
    rw [e]
    simp only
    refine (Reader.run_onEnd (by rfl)).trans ?_
    rw [h3]
    have : ∀ r : Res Failure Out, ((do
        let rs ← thread self arg ops
        pure (r :: rs) : Reader N Empty _).run (exec self arg op w).2) =
        (.ok (r :: (runOps self arg ops (exec self arg op w).2).1), (runOps self arg ops (exec self arg op w).2).2) := by
      intro r
      rw [Reader.run_bind, bind_ok h2]
      rfl
    show _ = (Res.ok ((exec self arg op w).1 :: _), _)
    generalize (exec self arg op w).1 = r at *
    rcases r with _ | _ | _ | _ | _
    · exact this _
    · exact this _
    · exact this _
    · exact absurd rfl h1.1
    · exact absurd rfl h1.2

theorem thread_ub {self arg : Tag} {ops : List Op} (hops : ∀ op ∈ ops, op.shared = true)
    (h : ∀ r ∈ (runOps self arg ops w).1, r ≠ .diverge) (hu : .ub ∈ (runOps self arg ops w).1) :
    ((thread self arg ops).run w).1 = .ub := by
  induction ops generalizing w with
  | nil => cases hu
  | cons op ops ih =>
    obtain ⟨p, e, hp⟩ := Reader.run_exec (N := N) (self := self) (arg := arg) (hops op (List.mem_cons_self ..))
    have h1 : (exec self arg op w).1 ≠ .diverge := h _ (List.mem_cons_self ..)
    unfold thread
    rw [e]
    simp only
    refine (congrArg Prod.fst (Reader.run_onEnd (by rfl))).trans ?_
    by_cases hb : (exec self arg op w).1 = .ub
    · rw [Reader.bytewise_ub (by rw [hp R]; exact hb)]
      rfl
    · have h3 : p.bytewise.run w = exec self arg op w := by
        rw [← hp R] at hb ⊢
        exact Reader.run_bytewise hb
      have hu' : .ub ∈ (runOps self arg ops (exec self arg op w).2).1 := by
        rcases List.mem_cons.1 hu with hu | hu
        · exact absurd hu.symm hb
        · exact hu
      have h2 := ih (w := (exec self arg op w).2) (fun o ho => hops o (List.mem_cons_of_mem _ ho))
        (fun r hr => h r (List.mem_cons_of_mem _ hr)) hu'
      rw [h3]
      have : ∀ r : Res Failure Out, ((do
          let rs ← thread self arg ops
          pure (r :: rs) : Reader N Empty _).run (exec self arg op w).2).1 = .ub := by
        intro r
        rw [Reader.run_bind, Reader.bind_ub h2]
      generalize (exec self arg op w).1 = r at *
      rcases r with _ | _ | _ | _ | _
      · exact this _
      · exact this _
      · exact this _
      · exact absurd rfl hb
      · exact absurd rfl h1

end
end Verif.Borrow
