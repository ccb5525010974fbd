import Verif.Proofs.ClientRun

/-!
# Programs that keep references to the string

C59.  C57 with more than one reference in use: a program keeps what the calls give back, a `&str`, a `&[u8]`, a
`&mut str` or parts of it, and uses it as long as the borrow checker lets it.
-/

namespace Verif
open Spec Borrow

variable {N : Nat}

/-- C59, Stacked Borrows: a program that the borrow checker accepts sees what it should, has no undefined
behaviour, and leaves the references of the caller usable.  In particular a `&str` shows the text of the time
when it was made. -/
theorem C59_stacked [ValidCapacity N] (caller arg : Tag) (top : Nat) (w : World Stacked.rules N) (cs : List Char)
    (ps : List Statement) (htop : N < top) (h : StackedReady caller arg top w) (hs : Holds w.str cs)
    (hps : Accepted .start ps) (hok : ∀ p ∈ ps, p.Ok)
    (ht : ∀ p ∈ ps, ∀ t ∈ stmtTexts p, N + 1 + byteLen t ≤ top) :
    ∃ vars' w', performAll caller arg ps [] w =
        ((seeAll N ps ⟨cs, []⟩).1.map (Option.map Answer.toRes), vars', w') ∧
      Holds w'.str (seeAll N ps ⟨cs, []⟩).2.text ∧ StackedReady caller arg top w' := by
  obtain ⟨vars', w', h1, h2, h3⟩ := (core_of_ready (vars := []) (x := ⟨cs, []⟩) (hN := htop)
    (stackedReady_iff.1 h) hs rfl rfl).steps hps hok ht
  exact ⟨vars', w', h1, h2, stackedReady_iff.2 h3⟩

/-- C59, Tree Borrows. -/
theorem C59_tree [ValidCapacity N] (caller arg : Tag) (top : Nat) (w : World Tree.rules N) (cs : List Char)
    (ps : List Statement) (htop : N < top) (h : TreeReady caller arg top w) (hs : Holds w.str cs)
    (hps : Accepted .start ps) (hok : ∀ p ∈ ps, p.Ok)
    (ht : ∀ p ∈ ps, ∀ t ∈ stmtTexts p, N + 1 + byteLen t ≤ top) :
    ∃ vars' w', performAll caller arg ps [] w =
        ((seeAll N ps ⟨cs, []⟩).1.map (Option.map Answer.toRes), vars', w') ∧
      Holds w'.str (seeAll N ps ⟨cs, []⟩).2.text ∧ TreeReady caller arg top w' := by
  obtain ⟨vars', w', h1, h2, h3⟩ := (core_of_ready (vars := []) (x := ⟨cs, []⟩) (hN := htop)
    (treeReady_iff.1 h) hs rfl rfl).steps hps hok ht
  exact ⟨vars', w', h1, h2, treeReady_iff.2 h3⟩

/-- C59: a program that owns a string, borrows it once and is accepted by the borrow checker sees what it should
under both sets of rules, and has no undefined behaviour. -/
theorem C59_program [ValidCapacity N] (s : ArrayString N) (cs : List Char) (ps : List Statement) (hs : Holds s cs)
    (hps : Accepted .start ps) (hok : ∀ p ∈ ps, p.Ok) :
    (performAll 1 3 ps [] (stackedStart s)).1 = (seeAll N ps ⟨cs, []⟩).1.map (Option.map Answer.toRes) ∧
    (performAll 1 3 ps [] (treeStart s)).1 = (seeAll N ps ⟨cs, []⟩).1.map (Option.map Answer.toRes) ∧
    some .ub ∉ (performAll 1 3 ps [] (stackedStart s)).1 ∧ some .ub ∉ (performAll 1 3 ps [] (treeStart s)).1 := by
  obtain ⟨top, h1, h2⟩ := exists_room N (ps.flatMap stmtTexts)
  have h2 : ∀ p ∈ ps, ∀ t ∈ stmtTexts p, N + 1 + byteLen t ≤ top :=
    fun p hp t ht => h2 t (List.mem_flatMap.2 ⟨p, hp, ht⟩)
  obtain ⟨_, _, e1, _⟩ := C59_stacked 1 3 top (stackedStart s) cs ps h1 (stackedStart_ready s top) hs hps hok h2
  obtain ⟨_, _, e2, _⟩ := C59_tree 1 3 top (treeStart s) cs ps h1 (treeStart_ready s top) hs hps hok h2
  have hub : some .ub ∉ (seeAll N ps ⟨cs, []⟩).1.map (Option.map Answer.toRes) := by
    intro h
    obtain ⟨a, _, ha⟩ := List.mem_map.1 h
    cases a with
    | none => cases ha
    | some a => exact (toRes_ne a).1 (Option.some.inj ha)
  rw [e1, e2]
  exact ⟨rfl, rfl, hub, hub⟩

/-! ## Programs with branches and loops -/

/-- C59, Stacked Borrows, for programs with branches and loops, which may go on for ever: the next statement is
chosen by the answers so far, and the borrow checker accepts all paths.  The first `n` statements, for any `n`,
are those of the program on a plain text, with the same answers. -/
theorem C59_plan_stacked [ValidCapacity N] (caller arg : Tag) (top : Nat) (w : World Stacked.rules N) (cs : List Char)
    (f : Plan) (n : Nat) (htop : N < top) (h : StackedReady caller arg top w) (hs : Holds w.str cs)
    (hf : f.Accepted n [] .start) (hok : ∀ seen p, f seen = some p → p.Ok)
    (ht : ∀ p ∈ f.trace N n [] ⟨cs, []⟩, ∀ t ∈ stmtTexts p, N + 1 + byteLen t ≤ top) :
    ∃ vars' w', play caller arg f n [] [] w =
        ((seeAll N (f.trace N n [] ⟨cs, []⟩) ⟨cs, []⟩).1.map (Option.map Answer.toRes), vars', w') ∧
      Holds w'.str (seeAll N (f.trace N n [] ⟨cs, []⟩) ⟨cs, []⟩).2.text ∧ StackedReady caller arg top w' := by
  obtain ⟨vars', w', h1, h2, h3⟩ := (core_of_ready (vars := []) (x := ⟨cs, []⟩) (hN := htop)
    (stackedReady_iff.1 h) hs rfl rfl).play hf hok ht
  exact ⟨vars', w', h1, h2, stackedReady_iff.2 h3⟩

/-- C59, Tree Borrows, for programs with branches and loops. -/
theorem C59_plan_tree [ValidCapacity N] (caller arg : Tag) (top : Nat) (w : World Tree.rules N) (cs : List Char)
    (f : Plan) (n : Nat) (htop : N < top) (h : TreeReady caller arg top w) (hs : Holds w.str cs)
    (hf : f.Accepted n [] .start) (hok : ∀ seen p, f seen = some p → p.Ok)
    (ht : ∀ p ∈ f.trace N n [] ⟨cs, []⟩, ∀ t ∈ stmtTexts p, N + 1 + byteLen t ≤ top) :
    ∃ vars' w', play caller arg f n [] [] w =
        ((seeAll N (f.trace N n [] ⟨cs, []⟩) ⟨cs, []⟩).1.map (Option.map Answer.toRes), vars', w') ∧
      Holds w'.str (seeAll N (f.trace N n [] ⟨cs, []⟩) ⟨cs, []⟩).2.text ∧ TreeReady caller arg top w' := by
  obtain ⟨vars', w', h1, h2, h3⟩ := (core_of_ready (vars := []) (x := ⟨cs, []⟩) (hN := htop)
    (treeReady_iff.1 h) hs rfl rfl).play hf hok ht
  exact ⟨vars', w', h1, h2, treeReady_iff.2 h3⟩

/-- C59: such a program that owns a string and borrows it once. -/
theorem C59_plan [ValidCapacity N] (s : ArrayString N) (cs : List Char) (f : Plan) (n : Nat) (hs : Holds s cs)
    (hf : f.Accepted n [] .start) (hok : ∀ seen p, f seen = some p → p.Ok) :
    let answers := (seeAll N (f.trace N n [] ⟨cs, []⟩) ⟨cs, []⟩).1.map (Option.map Answer.toRes)
    (play 1 3 f n [] [] (stackedStart s)).1 = answers ∧ (play 1 3 f n [] [] (treeStart s)).1 = answers ∧
    some .ub ∉ answers := by
  obtain ⟨top, h1, h2⟩ := exists_room N ((f.trace N n [] ⟨cs, []⟩).flatMap stmtTexts)
  have h2 : ∀ p ∈ f.trace N n [] ⟨cs, []⟩, ∀ t ∈ stmtTexts p, N + 1 + byteLen t ≤ top :=
    fun p hp t ht => h2 t (List.mem_flatMap.2 ⟨p, hp, ht⟩)
  obtain ⟨_, _, e1, _⟩ := C59_plan_stacked 1 3 top (stackedStart s) cs f n h1 (stackedStart_ready s top) hs hf hok h2
  obtain ⟨_, _, e2, _⟩ := C59_plan_tree 1 3 top (treeStart s) cs f n h1 (treeStart_ready s top) hs hf hok h2
  refine ⟨by rw [e1], by rw [e2], fun h => ?_⟩
  obtain ⟨a, _, ha⟩ := List.mem_map.1 h
  cases a with
  | none => cases ha
  | some a => exact (toRes_ne a).1 (Option.some.inj ha)

/-- Look at the text through a new `&str`, and take a character off, until there is none. -/
def shrink : Plan := fun seen =>
  if seen.length % 3 = 0 then some (.text none)
  else if seen.length % 3 = 1 then some (.read (seen.length / 3))
  else if seen.getLast? = some (some (.returned (.str []))) then none
  else some (.call .pop)

/-- The borrow checker accepts it, however often it goes round. -/
theorem shrink_accepted (n : Nat) {seen : List (Option Answer)} {c : Scope} (hc : c.count = (seen.length + 2) / 3)
    (h : seen.length % 3 = 1 → seen.length / 3 ∈ c.texts) : shrink.Accepted n seen c := by
  induction n generalizing seen c with
  | zero => trivial
  | succ n ih =>
    unfold Plan.Accepted shrink
    by_cases h0 : seen.length % 3 = 0
    · rw [if_pos h0]
      have : c.useShared.count = c.count := by unfold Scope.useShared; split <;> rfl
      refine fun a => ih ?_ fun _ => ?_
      · simp [Scope.addText, this, hc]
        omega
      · simp [Scope.addText, this, hc]
        exact .inl (by omega)
    rw [if_neg h0]
    by_cases h1 : seen.length % 3 = 1
    · rw [if_pos h1]
      simp only [Statement.check, if_pos (h h1)]
      refine fun a => ih ?_ fun _ => ?_ <;> simp_all <;> omega
    rw [if_neg h1]
    split <;> rename_i he <;> split at he <;> cases he
    · trivial
    · refine fun a => ih ?_ fun _ => ?_ <;> simp_all [Scope.useMut, Op.shared] <;> omega

example (n : Nat) : shrink.Accepted n [] .start ∧ (∀ seen p, shrink seen = some p → p.Ok) := by
  refine ⟨shrink_accepted n rfl nofun, fun seen p h => ?_⟩
  unfold shrink at h
  repeat' split at h
  all_goals cases h <;> trivial

/-- What it sees of a text of two characters. -/
example : (seeAll 8 (shrink.trace 8 100 [] ⟨['h', 'é'], []⟩) ⟨['h', 'é'], []⟩).1 =
    [.unit, .str (utf8 ['h', 'é']), .optChar (some 'é'), .unit, .str (utf8 ['h']), .optChar (some 'h'),
      .unit, .str []].map fun o => some (.returned o) := by decide

def turn : Edit := ⟨List.reverse, byteLen_rev⟩

/-- A program that keeps several references, uses them in turn, and makes one that panics. -/
def sampleProgram : List Statement :=
  [.call (.tryPushStr ['h', 'é']), .share, .text none, .ask 0 .len, .slice (some 0) (.range 0 1), .bytes (some 0),
   .read 1, .read 2, .call .isEmpty, .read 3, .read 1,
   .mutText, .mutPart 4 0 3, .mutPart 5 1 3, .peek 6, .read 7, .peek 6, .read 7, .edit 6 turn, .edit 5 turn,
   .peek 4, .read 9, .edit 4 turn, .slice none (.range 0 2), .read 10, .call .len, .read 10,
   .mutSlice (.range 1 2), .edit 11 turn, .mutSlice (.from_ 1), .edit 12 turn, .text none, .read 13, .call .pop]

set_option maxRecDepth 4000 in
/-- The hypotheses of the theorems hold for it, from an empty string. -/
example : Holds (stackedStart (ArrayString.new : ArrayString 8)).str [] ∧
    Holds (treeStart (ArrayString.new : ArrayString 8)).str [] ∧
    StackedReady 1 3 20 (stackedStart (ArrayString.new : ArrayString 8)) ∧
    TreeReady 1 3 20 (treeStart (ArrayString.new : ArrayString 8)) ∧
    Accepted .start sampleProgram ∧
    (∀ p ∈ sampleProgram, ∀ t ∈ stmtTexts p, 8 + 1 + byteLen t ≤ 20) ∧
    (seeAll 8 sampleProgram ⟨[], []⟩).1 =
      ([.unit, .unit, .unit, .nat 3, .unit, .unit, .str (utf8 ['h', 'é']), .str (utf8 ['h']), .bool false,
        .str (utf8 ['h', 'é']), .str (utf8 ['h', 'é']), .unit, .unit, .unit, .unit, .str (utf8 ['é']), .unit,
        .str (utf8 ['é']), .unit, .unit, .unit, .str (utf8 ['é', 'h']), .unit].map fun o => some (.returned o)) ++
      [some .panicked, none, some (.returned (.nat 3)), none, some .panicked, none] ++
      ([.unit, .unit, .unit, .str (utf8 ['h', 'é']), .optChar (some 'é')].map fun o => some (.returned o)) ∧
    (seeAll 8 sampleProgram ⟨[], []⟩).2.text = ['h'] :=
  ⟨holds_new, holds_new, stackedStart_ready _ _, treeStart_ready _ _, by decide, by decide, by decide, by decide⟩

/-! ## Tests: what the borrow checker rejects -/

/-- A `&str`, `&[u8]`, part or `&ArrayString` used after a change; a `&mut str` used after the string has been
looked at in another way, or after a newer one has been made; an older and a newer `&mut str` used in turn. -/
def rejected : List (List Statement) :=
  [[.text none, .call (.asMutStr turn), .read 0],
   [.bytes none, .call (.indexMut .full turn), .read 0],
   [.slice none (.range 0 1), .call (.asMutStr turn), .read 0],
   [.share, .call .pop, .ask 0 .len],
   [.share, .text (some 0), .mutText, .edit 2 turn, .read 1],
   [.mutText, .edit 0 turn, .text none, .edit 0 turn],
   [.mutText, .mutPart 0 0 1, .edit 0 turn, .edit 1 turn],
   [.mutText, .peek 0, .edit 0 turn, .read 1],
   [.mutSlice (.range 0 1), .mutSlice (.range 0 1), .edit 1 turn, .edit 0 turn]]

example : ∀ ps ∈ rejected, ¬ Accepted .start ps := by decide

set_option maxRecDepth 4000 in
/-- They have undefined behaviour. -/
example : ∀ ps ∈ rejected, some .ub ∈ (performAll 1 3 ps [] (stackedStart sample)).1 ∧
    some .ub ∈ (performAll 1 3 ps [] (treeStart sample)).1 := by decide

set_option maxRecDepth 4000 in
/-- Only the checker rejects this one: `pop` does not change the bytes of the text. -/
example : ¬ Accepted .start [.text none, .call .pop, .read 0] ∧
    (performAll 1 3 [.text none, .call .pop, .read 0] [] (treeStart sample)).1 =
      [some (.ok .unit), some (.ok (.optChar (some ' '))), some (.ok (.str (utf8 ['h', 'é', ' '])))] := by decide

end Verif
