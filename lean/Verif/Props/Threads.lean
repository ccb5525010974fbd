import Verif.Proofs.ThreadsRun
import Verif.Proofs.ThreadsAlone
import Verif.Props.Client

/-!
# A string that several threads look at

C60.  `ArrayString` is `Sync`: it is made of bytes, and no function with `&self` writes.  Threads that share a
`&ArrayString` may call these functions at the same time, in any order of their single steps.
-/

namespace Verif
open Spec Borrow

variable {N : Nat}

/-! ## The calls write nothing -/

/-- C60: a call that takes `&self` is a program without a write, under any aliasing rules, so two of them cannot
be in a data race. -/
theorem C60_reads (self arg : Tag) (op : Op) (h : op.shared = true) :
    ∃ p : Reader N Failure Out, Reader.exec self arg op = some p ∧
      ∀ R : Rules, (p.run : M (World R N) Failure Out) = Borrow.exec self arg op :=
  Reader.run_exec h

/-- C60: the threads below read byte by byte; alone, that makes no difference. -/
theorem C60_bytewise {R : Rules} (p : Reader N Failure Out) (w : World R N) (h : (p.run w).1 ≠ .ub) :
    p.bytewise.run w = p.run w :=
  Reader.run_bytewise h

example : Reader.exec (N := 8) 1 3 (.index (.range 0 1)) ≠ none ∧ Reader.exec (N := 8) 1 3 .pop = none := by
  simp [Reader.exec]

/-- C60: a thread that is not interrupted makes its calls one after the other, as in C57, whatever the other
threads are about to do. -/
theorem C60_alone {R : Rules} (self arg : Tag) (ops : List Op) (i : Nat) (ts : List (Reader N Empty _)) (w : World R N)
    (hops : ∀ op ∈ ops, op.shared = true) (hi : ts[i]? = some (thread self arg ops))
    (h : ∀ r ∈ (Borrow.runOps self arg ops w).1, r ≠ .ub ∧ r ≠ .diverge) :
    ∃ n, interleave ts w (List.replicate n i) =
      (ts.set i (.done (.ok (Borrow.runOps self arg ops w).1)), (Borrow.runOps self arg ops w).2) := by
  obtain ⟨n, hn⟩ := interleave_one (w := w) hi
  exact ⟨n, by rw [hn, run_thread hops h]⟩

/-- C60: and if one of them breaks the rules, so does the thread. -/
theorem C60_breaks {R : Rules} (self arg : Tag) (ops : List Op) (i : Nat) (ts : List (Reader N Empty _)) (w : World R N)
    (hops : ∀ op ∈ ops, op.shared = true) (hi : ts[i]? = some (thread self arg ops))
    (h : ∀ r ∈ (Borrow.runOps self arg ops w).1, r ≠ .diverge) (hu : .ub ∈ (Borrow.runOps self arg ops w).1) :
    ∃ n, (interleave ts w (List.replicate n i)).1 = ts.set i (.done .ub) := by
  obtain ⟨n, hn⟩ := interleave_one (w := w) hi
  exact ⟨n, by rw [hn, thread_ub hops h hu]⟩

/-- Tag 2 is not a reference to the string. -/
example : (Borrow.runOps 1 3 [.len, .capacity] (stackedStart sample)).1 = [.ok (.nat 4), .ok (.nat 8)] ∧
    (Borrow.runOps 2 3 [.len, .capacity] (stackedStart sample)).1 = [.ub, .ok (.nat 8)] := by decide

/-! ## The threads -/

/-- What a thread should find. -/
def found (N : Nat) (cs : List Char) (ops : List Op) : List (Res Failure Out) :=
  ops.map fun op => (step N op cs).1.toRes

section
variable {R : Rules} {L : Laws R} {caller arg : Tag} {top : Nat} {w : World R N} {cs : List Char}
  {jobs : List (List Op)}

theorem shared_exec [ValidCapacity N] {op : Op} {s : ArrayString N} (h : op.shared = true) (hok : op.Ok)
    (hs : Holds s cs) : (Verif.exec op s).1 = (step N op cs).1.toRes :=
  (exec_sim op hok (by rintro ws rfl; cases h) hs).1

/-- The threads that share the string. -/
theorem pool_start [ValidCapacity N] (htop : N < top) (h : Ready L caller arg top w) (hs : Holds w.str cs)
    (hjobs : ∀ ops ∈ jobs, ∀ op ∈ ops, op.shared = true ∧ op.Ok)
    (ht : ∀ ops ∈ jobs, ∀ op ∈ ops, ∀ t ∈ texts op, N + 1 + byteLen t ≤ top) :
    ∃ t w₁, (retagShared caller 0 (N + 1) false : M _ Failure _) w = (.ok t, w₁) ∧
      Pool L (bases (fun _ => caller) (argText R arg top htop))
        (props (Home L caller fun _ => []) (argText R arg top htop)) top w.str
        (fun i r => ∀ ops, jobs[i]? = some ops → r = .ok (found N cs ops)) (jobs.map (thread t arg)) w₁ := by
  have hi := (h.state htop).inv (b := fun _ => caller) fun _ _ => L.stable_root
  obtain ⟨t, w₁, e1, e2, e3⟩ := shared_run (ε := Failure) (p := false) hi
    (usable_self (A := argText R arg top htop) fun _ _ => rfl) (show N + 1 ≤ top by omega)
  refine ⟨t, w₁, e1, e2, _, _, fun _ => [], e3, fun l u hu => ?_, fun i p hp => ?_⟩
  · simp only [Bool.false_eq_true, if_false, above] at hu
    split at hu <;> cases hu
  · rw [List.getElem?_map] at hp
    cases hj : jobs[i]? with
    | none => rw [hj] at hp; cases hp
    | some ops =>
      rw [hj] at hp
      obtain rfl := Option.some.inj hp
      have hm := List.mem_of_getElem? hj
      have he : ∀ op ∈ ops, (Verif.exec op w.str).1 = (step N op cs).1.toRes := fun op ho =>
        shared_exec (hjobs ops hm op ho).1 (hjobs ops hm op ho).2 hs
      refine ((ends_thread (fun op ho => (hjobs ops hm op ho).1) ins_covers.usable
        (fun l h1 _ => .inl (if_neg (show ¬ l ≤ N by omega)).symm) htop ⟨hs.1, hs.2.1⟩
        (fun op ho t hx => by rw [length_utf8]; exact ht ops hm op ho t hx)
        (fun op ho => by rw [he op ho]; exact toRes_ne _)) []).weaken ?_
      rintro r T' H' ⟨h1, _, h3⟩
      cases h1 with
      | ok h1 =>
        refine ⟨fun ops' ho => ?_, h3 settled_ok⟩
        obtain rfl := Option.some.inj (hj.symm.trans ho)
        rw [h1, found]
        exact congrArg _ (List.map_congr_left he)

theorem threads_run [ValidCapacity N] (htop : N < top) (h : Ready L caller arg top w) (hs : Holds w.str cs)
    (hjobs : ∀ ops ∈ jobs, ∀ op ∈ ops, op.shared = true ∧ op.Ok)
    (ht : ∀ ops ∈ jobs, ∀ op ∈ ops, ∀ t ∈ texts op, N + 1 + byteLen t ≤ top) :
    ∃ t w₁, (retagShared caller 0 (N + 1) false : M _ Failure _) w = (.ok t, w₁) ∧
      (∀ schedule, let e := interleave (jobs.map (thread t arg)) w₁ schedule
        e.2.str = w.str ∧ e.1.length = jobs.length ∧
        (∀ (i : Nat) ops r, jobs[i]? = some ops → e.1[i]? = some (Reader.done r) → r = .ok (found N cs ops)) ∧
        ((∀ p ∈ e.1, ∃ r, p = Reader.done r) → Ready L caller arg top e.2)) ∧
      ∀ σ : Nat → Nat, (∀ i, i < jobs.length → ∀ n, ∃ m, n ≤ m ∧ σ m = i) → ∃ n,
        (interleave (jobs.map (thread t arg)) w₁ ((List.range n).map σ)).1 =
          jobs.map fun ops => Reader.done (.ok (found N cs ops)) := by
  obtain ⟨t, w₁, e1, hp⟩ := pool_start htop h hs hjobs ht
  refine ⟨t, w₁, e1, fun schedule => ?_, fun σ hσ => ?_⟩
  · have hp := hp.interleave schedule
    refine ⟨hp.1, by rw [length_interleave, List.length_map], fun i ops r ho hr => hp.done hr ops ho, fun hd => ?_⟩
    obtain ⟨T, hi⟩ := hp.all hd
    refine State.ready (T := T) (hN := htop) (State.of_inv (b := fun _ => caller) ?_)
    intro l hl
    have := hi l hl
    simpa [above] using this
  · obtain ⟨n, hn⟩ := all_end (ts := jobs.map (thread t arg)) (w := w₁) (σ := σ) (by simpa using hσ)
    refine ⟨n, List.ext_getElem? fun i => ?_⟩
    by_cases hi : i < jobs.length
    · obtain ⟨r, hr⟩ := hn i (by simpa using hi)
      have := (hp.interleave ((List.range n).map σ)).done hr (jobs[i]) (List.getElem?_eq_getElem hi)
      have hr : (interleave (jobs.map (thread t arg)) w₁ ((List.range n).map σ)).1[i]? = _ := hr
      rw [hr, this, List.getElem?_map, List.getElem?_eq_getElem hi]
      rfl
    · rw [List.getElem?_eq_none (by rw [length_interleave]; simpa using hi),
        List.getElem?_eq_none (by simpa using hi)]

end

/-- C60, Stacked Borrows: threads that call functions with `&self` through one `&ArrayString`, their steps in any
order, have no undefined behaviour, find what they would find alone, and leave the string as it was.  When all
have ended, the caller may use its `&mut` again.  If each has a turn again and again, all end. -/
theorem C60_stacked [ValidCapacity N] (caller arg : Tag) (top : Nat) (w : World Stacked.rules N) (cs : List Char)
    (jobs : List (List Op)) (htop : N < top) (h : StackedReady caller arg top w) (hs : Holds w.str cs)
    (hjobs : ∀ ops ∈ jobs, ∀ op ∈ ops, op.shared = true ∧ op.Ok)
    (ht : ∀ ops ∈ jobs, ∀ op ∈ ops, ∀ t ∈ texts op, N + 1 + byteLen t ≤ top) :
    ∃ t w₁, (retagShared caller 0 (N + 1) false : M _ Failure _) w = (.ok t, w₁) ∧
      (∀ schedule, let e := interleave (jobs.map (thread t arg)) w₁ schedule
        e.2.str = w.str ∧ e.1.length = jobs.length ∧
        (∀ (i : Nat) ops r, jobs[i]? = some ops → e.1[i]? = some (Reader.done r) → r = .ok (found N cs ops)) ∧
        ((∀ p ∈ e.1, ∃ r, p = Reader.done r) → StackedReady caller arg top e.2)) ∧
      ∀ σ : Nat → Nat, (∀ i, i < jobs.length → ∀ n, ∃ m, n ≤ m ∧ σ m = i) → ∃ n,
        (interleave (jobs.map (thread t arg)) w₁ ((List.range n).map σ)).1 =
          jobs.map fun ops => Reader.done (.ok (found N cs ops)) := by
  simp only [stackedReady_iff] at h ⊢
  exact threads_run htop h hs hjobs ht

/-- C60, Tree Borrows. -/
theorem C60_tree [ValidCapacity N] (caller arg : Tag) (top : Nat) (w : World Tree.rules N) (cs : List Char)
    (jobs : List (List Op)) (htop : N < top) (h : TreeReady caller arg top w) (hs : Holds w.str cs)
    (hjobs : ∀ ops ∈ jobs, ∀ op ∈ ops, op.shared = true ∧ op.Ok)
    (ht : ∀ ops ∈ jobs, ∀ op ∈ ops, ∀ t ∈ texts op, N + 1 + byteLen t ≤ top) :
    ∃ t w₁, (retagShared caller 0 (N + 1) false : M _ Failure _) w = (.ok t, w₁) ∧
      (∀ schedule, let e := interleave (jobs.map (thread t arg)) w₁ schedule
        e.2.str = w.str ∧ e.1.length = jobs.length ∧
        (∀ (i : Nat) ops r, jobs[i]? = some ops → e.1[i]? = some (Reader.done r) → r = .ok (found N cs ops)) ∧
        ((∀ p ∈ e.1, ∃ r, p = Reader.done r) → TreeReady caller arg top e.2)) ∧
      ∀ σ : Nat → Nat, (∀ i, i < jobs.length → ∀ n, ∃ m, n ≤ m ∧ σ m = i) → ∃ n,
        (interleave (jobs.map (thread t arg)) w₁ ((List.range n).map σ)).1 =
          jobs.map fun ops => Reader.done (.ok (found N cs ops)) := by
  simp only [treeReady_iff] at h ⊢
  exact threads_run htop h hs hjobs ht

/-! ## Tests -/

/-- Three threads. -/
def sampleJobs : List (List Op) :=
  [[.len, .eqStr ['h', 'é', ' '], .index (.range 1 2)], [.asStr, .display], [.hash, .isEmpty, .capacity, .asBytes]]

/-- What they find; one of the calls panics. -/
example : Holds sample ['h', 'é', ' '] ∧ StackedReady 1 3 20 (stackedStart sample) ∧
    TreeReady 1 3 20 (treeStart sample) ∧
    (∀ ops ∈ sampleJobs, ∀ op ∈ ops, op.shared = true ∧ ∀ t ∈ texts op, 8 + 1 + byteLen t ≤ 20) ∧
    sampleJobs.map (found 8 ['h', 'é', ' ']) =
      [[.ok (.nat 4), .ok (.bool true), .panic], [.ok (.str (utf8 ['h', 'é', ' '])), .ok (.str (utf8 ['h', 'é', ' ']))],
        [.ok (.str (utf8 ['h', 'é', ' '] ++ [255])), .ok (.bool false), .ok (.nat 8), .ok (.str (utf8 ['h', 'é', ' ']))]] :=
  ⟨sample_holds, stackedStart_ready _ _, treeStart_ready _ _, by decide, by decide⟩

/-- The two worlds after `&*s`, and some steps of threads. -/
def stackedAfter (jobs : List (List Op)) (schedule : List Nat) :=
  let x := (retagShared 1 0 9 false : M _ Failure _) (stackedStart sample)
  match x.1 with
  | .ok t => interleave (jobs.map (thread t 3)) x.2 schedule
  | _ => ([], x.2)

def treeAfter (jobs : List (List Op)) (schedule : List Nat) :=
  let x := (retagShared 1 0 9 false : M _ Failure _) (treeStart sample)
  match x.1 with
  | .ok t => interleave (jobs.map (thread t 3)) x.2 schedule
  | _ => ([], x.2)

/-- What a thread that has ended has found. -/
def outcome {α : Type} : Reader N Empty α → Option (Res Empty α)
  | .done r => some r
  | _ => none

/-- Two threads in the middle of a call, and later. -/
def early : List Nat := [0, 1, 1, 0, 0, 1]
def late : List Nat := early ++ [0, 1, 0, 1, 0, 1]

set_option maxRecDepth 4000 in
/-- Both find the length. -/
example : (stackedAfter [[.len], [.len]] late).1.map outcome = List.replicate 2 (some (.ok [.ok (.nat 4)])) ∧
    (treeAfter [[.len], [.len]] late).1.map outcome = List.replicate 2 (some (.ok [.ok (.nat 4)])) := by decide

set_option maxRecDepth 4000 in
/-- The caller must not change the string before they have ended. -/
example : (Borrow.exec 1 3 .clear (stackedAfter [[.len], [.len]] early).2).1 = .ub ∧
    (Borrow.exec 1 3 .clear (treeAfter [[.len], [.len]] early).2).1 = .ub ∧
    (Borrow.exec 1 3 .clear (stackedAfter [[.len], [.len]] late).2).1 = .ok .unit ∧
    (Borrow.exec 1 3 .clear (treeAfter [[.len], [.len]] late).2).1 = .ok .unit := by decide

end Verif
