import Verif.Proofs.History

/-!
# Properties of histories of calls

`runOps ops s` performs the calls `ops` one after the other on the string `s` and records the
outcomes; the caller goes on after an `Err` and after catching a panic.  `steps N ops cs` does the
same on a plain text `cs`, from the descriptions in `Spec/History.lean`.
-/

namespace Verif
open Spec ArrayString

variable {N : Nat} [ValidCapacity N]

/-- One call, `write!` included. -/
theorem exec_step (op : Op) (hop : op.Ok) (s : ArrayString N) (cs : List Char) (hs : Holds s cs) :
    (exec op s).1 = (step N op cs).1.toRes ∧ Holds (exec op s).2 (step N op cs).2 := by
  by_cases h : ∃ ws, op = .writeFmt ws
  · obtain ⟨ws, rfl⟩ := h
    exact writeFmt_sim ValidCapacity.le hs ws
  · have := exec_sim op hop (fun ws e => h ⟨ws, e⟩) hs
    exact ⟨this.1, this.2.1⟩

/-- C03: any history of calls on a string gives, call by call, the answers of the same history on the
text it holds, and ends with the same text. -/
theorem C03_refinement (ops : List Op) (hops : ∀ op ∈ ops, op.Ok) (s : ArrayString N) (cs : List Char)
    (hs : Holds s cs) :
    (runOps ops s).1 = (steps N ops cs).1.map Answer.toRes ∧
    Holds (runOps ops s).2 (steps N ops cs).2 := by
  induction ops generalizing s cs with
  | nil => exact ⟨rfl, hs⟩
  | cons op ops ih =>
    obtain ⟨h1, h2⟩ := exec_step op (hops op (List.mem_cons_self ..)) s cs hs
    obtain ⟨h3, h4⟩ := ih (fun o ho => hops o (List.mem_cons_of_mem _ ho)) _ _ h2
    simp only [runOps, steps]
    exact ⟨by rw [List.map_cons, h1, h3], h4⟩

/-- C03, from an empty string, with the final text as observed by `as_str`. -/
theorem C03_from_new (ops : List Op) (hops : ∀ op ∈ ops, op.Ok) :
    (runOps ops (ArrayString.new : ArrayString N)).1 = (steps N ops []).1.map Answer.toRes ∧
    ((runOps ops (ArrayString.new : ArrayString N)).2.asStr : Res Error Bytes) = .ok (utf8 (steps N ops []).2) := by
  obtain ⟨h1, h2⟩ := C03_refinement ops hops (ArrayString.new : ArrayString N) [] holds_new
  exact ⟨h1, h2.asStr⟩

theorem seen_toRes (a : Answer) : a.toRes.seen = some a := by cases a <;> rfl

/-- C03 for programs with branches and loops, which may go on for ever: however the next call is chosen by the
answers so far, the answers and the text are those of the same program on a plain text, after any number of
calls. -/
theorem C03_choice (f : Chooser) (hf : ∀ seen op, f seen = some op → op.Ok) (n : Nat) (seen : List Answer)
    (s : ArrayString N) (cs : List Char) (hs : Holds s cs) :
    (runChoice f n seen s).1 = (choose N f n seen cs).1.map Answer.toRes ∧
    Holds (runChoice f n seen s).2 (choose N f n seen cs).2 := by
  induction n generalizing seen s cs with
  | zero => exact ⟨rfl, hs⟩
  | succ n ih =>
    cases ho : f seen with
    | none => simp only [runChoice, choose, ho]; exact ⟨rfl, hs⟩
    | some op =>
      obtain ⟨h1, h2⟩ := exec_step op (hf seen op ho) s cs hs
      obtain ⟨h3, h4⟩ := ih (seen ++ [(step N op cs).1]) _ _ h2
      simp only [runChoice, choose, ho, h1, seen_toRes]
      exact ⟨by rw [List.map_cons, h3], h4⟩

/-- Fill the string until it is full, then take a character from it, for ever. -/
def fill : Chooser := fun seen => match seen.getLast? with
  | some (.failed _) => some .pop
  | _ => some (.tryPush 'é')

example : choose 5 fill 6 [] ['x'] =
    ([.returned .unit, .returned .unit, .failed .outOfBounds, .returned (.optChar (some 'é')), .returned .unit,
      .failed .outOfBounds], ['x', 'é', 'é']) := by decide

example : ∀ seen op, fill seen = some op → op.Ok := by
  intro seen op h
  unfold fill at h
  split at h <;> cases h <;> trivial

/-- A history in which calls succeed, truncate, fail and panic. -/
example : steps 8
    [.tryPushStr ['h', 'é'], .pushStrTruncate ['€', 'x', 'é'], .tryPush 'é', .remove 0, .remove 1,
     .index (.range 0 1), .drain (.range 0 2) [.back, .front], .tryInsertStr 3 ['y'], .pop, .trim,
     .retain (fun seen _ => if seen.length = 1 then none else some true), .writeFmt [['1'], ['2']], .asStr] [] =
    ([.returned .unit, .returned .unit, .failed .outOfBounds, .returned (.char 'h'), .failed .utf8,
      .panicked, .returned (.drained [some 'é', none] []), .returned .unit, .returned (.optChar (some 'x')),
      .returned .unit, .panicked, .returned .unit, .returned (.str (utf8 ['€', 'y', '1', '2']))],
     ['€', 'y', '1', '2']) := by decide

/-- The strings a program can make: from an empty string by any history of calls. -/
def Reachable (s : ArrayString N) : Prop :=
  ∃ ops : List Op, (∀ op ∈ ops, op.Ok) ∧ s = (runOps ops ArrayString.new).2

/-- C01: whatever the calls returned, the bytes of a reachable string are valid UTF-8 and within the
capacity. -/
theorem C01_valid (s : ArrayString N) (h : Reachable s) :
    ∃ cs, (s.asRefBytes : Res Error Bytes) = .ok (utf8 cs) ∧ (s.asStr : Res Error Bytes) = .ok (utf8 cs) ∧
      s.len = byteLen cs ∧ s.len ≤ capacity N ∧ s.array.length = N := by
  obtain ⟨ops, hops, rfl⟩ := h
  have h2 := (C03_refinement ops hops (ArrayString.new : ArrayString N) [] holds_new).2
  exact ⟨_, h2.asRefBytes, h2.asStr, h2.len, h2.2.1, h2.1⟩

/-- C01: reachable strings hold a text, the hypothesis of all the theorems about single calls. -/
theorem C01_holds (s : ArrayString N) (h : Reachable s) : ∃ cs, Holds s cs := by
  obtain ⟨ops, hops, rfl⟩ := h
  exact ⟨_, (C03_refinement ops hops (ArrayString.new : ArrayString N) [] holds_new).2⟩

/-- C01: conversely, every text that fits is held by a reachable string. -/
theorem C01_every_text (cs : List Char) (h : byteLen cs ≤ N) : ∃ s : ArrayString N, Reachable s ∧ Holds s cs := by
  refine ⟨_, ⟨[.tryFromStr cs], by simp [Op.Ok], rfl⟩, ?_⟩
  have := (C03_refinement [.tryFromStr cs] (by simp [Op.Ok]) (ArrayString.new : ArrayString N) [] holds_new).2
  simpa [steps, step, h] using this

example : Reachable (N := 8) (runOps [.tryPushStr ['h', 'é'], .remove 1, .pop, .remove 1] ArrayString.new).2 :=
  ⟨[.tryPushStr ['h', 'é'], .remove 1, .pop, .remove 1], by simp [Op.Ok], rfl⟩

/-- The caller's iterators and predicates do not panic, and the call is not an indexing one. -/
def Spec.Op.Calm : Op → Prop
  | .tryFromIterator ws | .collectStrs ws | .extendStrs ws => none ∉ ws
  | .fromIteratorTruncate ws => none ∉ ws
  | .tryFromChars w | .fromCharsTruncate w | .collectChars w | .extendChars w => none ∉ w
  | .retain f => ∀ seen c, f seen c ≠ none
  | .index _ | .indexMut _ _ => False
  | _ => True

theorem toRes_ne (a : Answer) : a.toRes ≠ .ub ∧ a.toRes ≠ .diverge := by cases a <;> simp [Answer.toRes]

/-- C02: no call of any history performs an undefined operation or loops forever. -/
theorem C02_safe (ops : List Op) (hops : ∀ op ∈ ops, op.Ok) (s : ArrayString N) (hs : ∃ cs, Holds s cs) :
    ∀ r ∈ (runOps ops s).1, r ≠ .ub ∧ r ≠ .diverge := by
  obtain ⟨cs, hs⟩ := hs
  rw [(C03_refinement ops hops s cs hs).1]
  intro r hr
  obtain ⟨a, _, rfl⟩ := List.mem_map.1 hr
  exact toRes_ne a

omit [ValidCapacity N] in
theorem gather_calm {n : Nat} {l : Script (List Char × List Char)} (h : none ∉ l) : (gather n l).2 ≠ .panicked := by
  induction l generalizing n with
  | nil => simp [gather]
  | cons a l ih =>
    cases a with
    | none => simp at h
    | some p =>
      rw [gather]
      split
      · exact ih (by simpa using h)
      · simp

omit [ValidCapacity N] in
theorem gatherAll_calm {cs : List Char} {n : Nat} {l : Script (List Char × List Char)} (h : none ∉ l) :
    (assign cs (gatherAll n l)).1 ≠ .panicked := by
  rw [gatherAll_eq]
  have := gather_calm (n := n) h
  cases e : (gather n l).2 <;> simp_all [assign]

omit [ValidCapacity N] in
theorem gatherFit_calm {n : Nat} {l : Script (List Char × List Char)} (h : none ∉ l) :
    ∃ w, gatherFit n l = .ok w := by
  rw [gatherFit_eq]
  have := gather_calm (n := n) h
  cases e : (gather n l).2 <;> simp_all

omit [ValidCapacity N] in
theorem calm_twice {l : Script (List Char)} (h : none ∉ l) : none ∉ twice l := by
  simpa [twice] using h

omit [ValidCapacity N] in
theorem calm_single {l : Script Char} (h : none ∉ l) : none ∉ single l := by
  simpa [single] using h

omit [ValidCapacity N] in
theorem keep_calm {f : List Char → Char → Option Bool} (h : ∀ seen c, f seen c ≠ none) (seen cs : List Char) :
    keep (logged f) seen cs ≠ none := by
  induction cs generalizing seen with
  | nil => simp [keep]
  | cons c cs ih =>
    have := h seen c
    rw [keep, logged]
    cases hf : f seen c with
    | none => exact absurd hf this
    | some b =>
      simp only [Option.map_some]
      cases hk : keep (logged f) (seen ++ [c]) cs with
      | none => exact absurd hk (ih _)
      | some x => simp

omit [ValidCapacity N] in
theorem insertAt_calm (n i : Nat) (w cs : List Char) : (insertAt n i w cs).1 ≠ .panicked := by
  unfold insertAt
  repeat' split
  all_goals simp

omit [ValidCapacity N] in
theorem step_calm (op : Op) (h : op.Calm) (cs : List Char) : (step N op cs).1 ≠ .panicked := by
  cases op with
  | tryFromIterator ws => exact gatherAll_calm (calm_twice h)
  | tryFromChars ws => exact gatherAll_calm (calm_single h)
  | fromIteratorTruncate ws =>
    obtain ⟨w, e⟩ := gatherFit_calm (n := N) (l := ws) h
    simp [step, e, assign]
  | collectStrs ws => obtain ⟨w, e⟩ := gatherFit_calm (n := N) (calm_twice h); simp [step, e, assign]
  | fromCharsTruncate ws => obtain ⟨w, e⟩ := gatherFit_calm (n := N) (calm_single h); simp [step, e, assign]
  | collectChars ws => obtain ⟨w, e⟩ := gatherFit_calm (n := N) (calm_single h); simp [step, e, assign]
  | extendChars ws => obtain ⟨w, e⟩ := gatherFit_calm (n := N) (calm_single h); simp [step, e]
  | extendStrs ws => obtain ⟨w, e⟩ := gatherFit_calm (n := N) (calm_twice h); simp [step, e]
  | retain f =>
    have := keep_calm h [] cs
    cases e : keep (logged f) [] cs with
    | none => exact absurd e this
    | some x => simp [step, e]
  | index i => exact h.elim
  | indexMut i e => exact h.elim
  | tryInsert i c => exact insertAt_calm N i _ cs
  | tryInsertStr i w => exact insertAt_calm N i _ cs
  | insertStrTruncate i w => exact insertAt_calm N i _ cs
  | writeFmt ws =>
    simp only [step]
    induction ws generalizing cs with
    | nil => simp [writeAll]
    | cons w ws ih =>
      rw [writeAll]
      split
      · exact ih _ trivial
      · simp
  | _ =>
    simp only [step]
    repeat' split
    all_goals simp

/-- C02: a call only panics if it indexes (`s[a..b]`), or if the caller's own iterator or predicate
panics. -/
theorem C02_no_panic (ops : List Op) (hops : ∀ op ∈ ops, op.Ok) (hcalm : ∀ op ∈ ops, op.Calm)
    (s : ArrayString N) (hs : ∃ cs, Holds s cs) :
    ∀ r ∈ (runOps ops s).1, r ≠ .panic ∧ r ≠ .ub ∧ r ≠ .diverge := by
  obtain ⟨cs, hs⟩ := hs
  rw [(C03_refinement ops hops s cs hs).1]
  intro r hr
  obtain ⟨a, ha, rfl⟩ := List.mem_map.1 hr
  refine ⟨?_, toRes_ne a⟩
  have : a ≠ .panicked := by
    clear hr hs s
    induction ops generalizing cs with
    | nil => simp [steps] at ha
    | cons op ops ih =>
      simp only [steps, List.mem_cons] at ha
      rcases ha with rfl | ha
      · exact step_calm op (hcalm op (List.mem_cons_self ..)) cs
      · exact ih (fun o ho => hops o (List.mem_cons_of_mem _ ho)) (fun o ho => hcalm o (List.mem_cons_of_mem _ ho)) _ ha
  cases a <;> simp_all [Answer.toRes]

/-- A history with extreme arguments, in which no callback panics. -/
example : ∀ op ∈ [Op.remove usizeMax, .drain ⟨.excluded usizeMax, .included usizeMax⟩ [.front],
    .replaceRange ⟨.excluded usizeMax, .unbounded⟩ ['x'], .extendChars [some 'x'],
    .retain fun seen _ => some (seen.length = 1)], op.Ok ∧ op.Calm := by
  simp [Op.Ok, Op.Calm, RangeOk, BoundOk]

/-- C04: a call on a reachable string that fails (or panics) leaves the whole string as it was, its
stale bytes included; only `write!` may write some of its pieces before it fails. -/
theorem C04_failed_call (op : Op) (hop : op.Ok) (hw : ∀ ws, op ≠ .writeFmt ws) (s s' : ArrayString N)
    (hs : ∃ cs, Holds s cs) (r : Res Failure Out) (h : exec op s = (r, s')) (hr : ∀ o, r ≠ .ok o) : s' = s := by
  obtain ⟨cs, hs⟩ := hs
  obtain ⟨h1, _, h3⟩ := exec_sim op hop hw hs
  rw [h] at h1 h3
  refine h3 fun o ho => hr o ?_
  rw [ho] at h1; exact h1

example : exec (N := 8) (.remove 2) sample = (.err .utf8, sample) :=
  call_err (remove_utf8 sample_holds (by decide) (by decide))
example : exec (N := 8) (.tryInsertStr 4 ['€', '€']) sample = (.err .outOfBounds, sample) :=
  call_err (tryInsertStr_full (by decide) sample_holds (by decide) (by decide))

/-- C04: the exception is real: `write!(s, "ab{}", "€")` fails on an empty string of capacity 3, and
leaves `ab` in it. -/
theorem C04_write_refuted :
    (exec (.writeFmt [['a', 'b'], ['€']]) (ArrayString.new : ArrayString 3)).1 = .err .fmt ∧
    Holds (exec (.writeFmt [['a', 'b'], ['€']]) (ArrayString.new : ArrayString 3)).2 ['a', 'b'] :=
  exec_step (.writeFmt [['a', 'b'], ['€']]) trivial (ArrayString.new : ArrayString 3) [] holds_new

/-! ## The specification of the iterator constructors, in other words -/

omit [ValidCapacity N] in
theorem gather_honest (n : Nat) (ws : List (List Char)) :
    (byteLen ws.flatten ≤ n ∧ gather n (twice (ws.map some)) = (ws.flatten, .ended)) ∨
    ∃ ps w r, ws = ps ++ w :: r ∧ byteLen ps.flatten ≤ n ∧ n < byteLen ps.flatten + byteLen w ∧
      gather n (twice (ws.map some)) = (ps.flatten, .over w) := by
  obtain ⟨ps, k, h0, h1, h2, h3⟩ := gather_spec id id n (ws.map some)
  have ht : twice (ws.map some) = (ws.map some).map (Option.map fun a => (id a, id a)) := rfl
  rw [← ht] at h1 h3
  rw [List.map_id] at h1 h2 h3
  obtain ⟨l1, l2, rfl, e1, rfl⟩ := List.map_eq_append_iff.1 h0
  have : l1 = ps := List.map_inj_right (by simp) |>.1 e1
  subst this
  rcases h3 with ⟨e, hk⟩ | ⟨e, r, hk⟩ | ⟨w, r, e, hk, h4⟩
  · left
    simp only [List.map_eq_nil_iff] at hk
    subst hk
    simp only [List.append_nil] at *
    exact ⟨h2, Prod.ext h1 e⟩
  · cases l2 <;> simp at hk
  · right
    cases l2 with
    | nil => simp at hk
    | cons w' l2 =>
      simp only [List.map_cons, List.cons.injEq, Option.some.injEq] at hk
      obtain ⟨rfl, _⟩ := hk
      exact ⟨l1, w', l2, rfl, h2, h4, Prod.ext h1 e⟩

omit [ValidCapacity N] in
/-- C03: gathering pieces that never panic, faithfully: the longest prefix of their concatenation that
fits. -/
theorem C03_gather_fit (n : Nat) (ws : List (List Char)) :
    gatherFit n (twice (ws.map some)) = .ok (takeFit n ws.flatten) := by
  rw [gatherFit_eq]
  rcases gather_honest n ws with ⟨h, e⟩ | ⟨ps, w, r, rfl, h1, h2, e⟩
  · rw [e, takeFit_of_le h]
  · rw [e, List.flatten_append, List.flatten_cons, takeFit_append, if_pos h1, takeFit_append, if_neg (by omega)]

omit [ValidCapacity N] in
/-- C03: or all of it. -/
theorem C03_gather_all (n : Nat) (ws : List (List Char)) :
    gatherAll n (twice (ws.map some)) =
      if byteLen ws.flatten ≤ n then .ok ws.flatten else .error (.failed .outOfBounds) := by
  rw [gatherAll_eq]
  rcases gather_honest n ws with ⟨h, e⟩ | ⟨ps, w, r, rfl, h1, h2, e⟩
  · rw [e, if_pos h]
  · rw [e, if_neg (by simp; omega)]

example : gatherFit 6 (twice [some ['a', 'é'], some ['€', 'b']]) = .ok ['a', 'é', '€'] := by rfl

end Verif
