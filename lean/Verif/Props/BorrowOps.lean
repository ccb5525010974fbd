import Verif.Proofs.BorrowOps
import Verif.Props.Borrow

/-!
# Every call keeps the aliasing rules

C57.  C54 for the whole interface: each of the calls of C03, with a tag on every reference it makes,
obeys Stacked Borrows and Tree Borrows and gives the answer it gives without tags.
-/

namespace Verif
open Spec Borrow

variable {N : Nat}

section
variable {R : Rules} {L : Laws R} {caller arg : Tag} {top : Nat} {w : World R N} {cs : List Char}

theorem borrow_op [ValidCapacity N] (h : Ready L caller arg top w) (htop : N < top) (hs : Shape w.str) (op : Op)
    (ht : ∀ t ∈ texts op, N + 1 + byteLen t ≤ top) :
    ∃ w', Borrow.exec caller arg op w = ((Verif.exec op w.str).1, w') ∧ w'.str = (Verif.exec op w.str).2 ∧
      (Settled (Verif.exec op w.str).1 → Ready L caller arg top w' ∧ Shape w'.str) :=
  Ready.of_sim (sim_exec (hN := htop) h hs fun t h => by simpa using ht t h)

theorem borrow_ops [ValidCapacity N] (h : Ready L caller arg top w) (htop : N < top) (hs : Holds w.str cs)
    (ops : List Op) (hops : ∀ op ∈ ops, op.Ok) (ht : ∀ op ∈ ops, ∀ t ∈ texts op, N + 1 + byteLen t ≤ top) :
    (Borrow.runOps caller arg ops w).1 = (steps N ops cs).1.map Answer.toRes ∧
    Holds (Borrow.runOps caller arg ops w).2.str (steps N ops cs).2 ∧
    Ready L caller arg top (Borrow.runOps caller arg ops w).2 := by
  induction ops generalizing w cs with
  | nil => exact ⟨rfl, hs, h⟩
  | cons op ops ih =>
    obtain ⟨w', e1, s1, g1⟩ := borrow_op h htop ⟨hs.1, hs.2.1⟩ op (ht op List.mem_cons_self)
    obtain ⟨h1, h2⟩ := exec_step op (hops op List.mem_cons_self) w.str cs hs
    rw [← s1] at h2
    rw [h1] at g1
    obtain ⟨i1, i2, i3⟩ := ih (g1 (toRes_ne _)).1 h2 (fun op h => hops op (List.mem_cons_of_mem _ h))
      (fun op h => ht op (List.mem_cons_of_mem _ h))
    simp only [Borrow.runOps, e1, steps, List.map_cons]
    exact ⟨by rw [i1, h1], i2, i3⟩

end

/-- C57, Stacked Borrows: any history of calls through a `&mut ArrayString` that may be used gives the
answers and the text of C03, none of them undefined behaviour, and leaves the references of the caller
usable; also when calls fail or panic. -/
theorem C57_stacked [ValidCapacity N] (caller arg : Tag) (top : Nat) (w : World Stacked.rules N)
    (cs : List Char) (ops : List Op) (htop : N < top) (h : StackedReady caller arg top w)
    (hs : Holds w.str cs) (hops : ∀ op ∈ ops, op.Ok)
    (ht : ∀ op ∈ ops, ∀ t ∈ texts op, N + 1 + byteLen t ≤ top) :
    (Borrow.runOps caller arg ops w).1 = (steps N ops cs).1.map Answer.toRes ∧
    Holds (Borrow.runOps caller arg ops w).2.str (steps N ops cs).2 ∧
    StackedReady caller arg top (Borrow.runOps caller arg ops w).2 := by
  rw [stackedReady_iff]
  exact borrow_ops (stackedReady_iff.1 h) htop hs ops hops ht

/-- C57, Tree Borrows. -/
theorem C57_tree [ValidCapacity N] (caller arg : Tag) (top : Nat) (w : World Tree.rules N)
    (cs : List Char) (ops : List Op) (htop : N < top) (h : TreeReady caller arg top w)
    (hs : Holds w.str cs) (hops : ∀ op ∈ ops, op.Ok)
    (ht : ∀ op ∈ ops, ∀ t ∈ texts op, N + 1 + byteLen t ≤ top) :
    (Borrow.runOps caller arg ops w).1 = (steps N ops cs).1.map Answer.toRes ∧
    Holds (Borrow.runOps caller arg ops w).2.str (steps N ops cs).2 ∧
    TreeReady caller arg top (Borrow.runOps caller arg ops w).2 := by
  rw [treeReady_iff]
  exact borrow_ops (treeReady_iff.1 h) htop hs ops hops ht

/-- C57, Stacked Borrows, for one call on any bytes, valid UTF-8 or not: following the rules changes
nothing, and if the call without tags has no undefined behaviour the references stay usable. -/
theorem C57_call_stacked [ValidCapacity N] (caller arg : Tag) (top : Nat) (w : World Stacked.rules N) (op : Op)
    (htop : N < top) (h : StackedReady caller arg top w) (hlen : w.str.array.length = N)
    (hl : w.str.size.toNat ≤ N) (ht : ∀ t ∈ texts op, N + 1 + byteLen t ≤ top) :
    ∃ w', Borrow.exec caller arg op w = ((Verif.exec op w.str).1, w') ∧ w'.str = (Verif.exec op w.str).2 ∧
      ((Verif.exec op w.str).1 ≠ .ub → (Verif.exec op w.str).1 ≠ .diverge → StackedReady caller arg top w') := by
  obtain ⟨w', e1, s1, g1⟩ := borrow_op (stackedReady_iff.1 h) htop ⟨hlen, hl⟩ op ht
  exact ⟨w', e1, s1, fun h1 h2 => stackedReady_iff.2 (g1 ⟨h1, h2⟩).1⟩

/-- C57, Tree Borrows, for one call on any bytes. -/
theorem C57_call_tree [ValidCapacity N] (caller arg : Tag) (top : Nat) (w : World Tree.rules N) (op : Op)
    (htop : N < top) (h : TreeReady caller arg top w) (hlen : w.str.array.length = N)
    (hl : w.str.size.toNat ≤ N) (ht : ∀ t ∈ texts op, N + 1 + byteLen t ≤ top) :
    ∃ w', Borrow.exec caller arg op w = ((Verif.exec op w.str).1, w') ∧ w'.str = (Verif.exec op w.str).2 ∧
      ((Verif.exec op w.str).1 ≠ .ub → (Verif.exec op w.str).1 ≠ .diverge → TreeReady caller arg top w') := by
  obtain ⟨w', e1, s1, g1⟩ := borrow_op (treeReady_iff.1 h) htop ⟨hlen, hl⟩ op ht
  exact ⟨w', e1, s1, fun h1 h2 => treeReady_iff.2 (g1 ⟨h1, h2⟩).1⟩

theorem exists_room (N : Nat) (l : List (List Char)) : ∃ top, N < top ∧ ∀ t ∈ l, N + 1 + byteLen t ≤ top := by
  induction l with
  | nil => exact ⟨N + 1, by omega, by simp⟩
  | cons t l ih =>
    obtain ⟨top, h1, h2⟩ := ih
    refine ⟨max top (N + 1 + byteLen t), by omega, fun u hu => ?_⟩
    rcases List.mem_cons.1 hu with rfl | hu
    · omega
    · have := h2 u hu
      omega

/-- C57: a program that owns a string, borrows it once and makes any history of calls through the borrow
has no undefined behaviour under either set of rules, and the answers are those of C03. -/
theorem C57_program [ValidCapacity N] (s : ArrayString N) (cs : List Char) (ops : List Op)
    (hs : Holds s cs) (hops : ∀ op ∈ ops, op.Ok) :
    (Borrow.runOps 1 3 ops (stackedStart s)).1 = (steps N ops cs).1.map Answer.toRes ∧
    (Borrow.runOps 1 3 ops (treeStart s)).1 = (steps N ops cs).1.map Answer.toRes ∧
    Res.ub ∉ (Borrow.runOps 1 3 ops (stackedStart s)).1 ∧ Res.ub ∉ (Borrow.runOps 1 3 ops (treeStart s)).1 := by
  obtain ⟨top, h1, h2⟩ := exists_room N (ops.flatMap texts)
  have h2 : ∀ op ∈ ops, ∀ t ∈ texts op, N + 1 + byteLen t ≤ top :=
    fun op ho t ht => h2 t (List.mem_flatMap.2 ⟨op, ho, ht⟩)
  have e1 := (C57_stacked 1 3 top (stackedStart s) cs ops h1 (stackedStart_ready s top) hs hops h2).1
  have e2 := (C57_tree 1 3 top (treeStart s) cs ops h1 (treeStart_ready s top) hs hops h2).1
  have hub : Res.ub ∉ (steps N ops cs).1.map Answer.toRes := by
    intro h
    obtain ⟨a, _, ha⟩ := List.mem_map.1 h
    exact (toRes_ne a).1 ha
  exact ⟨e1, e2, by rw [e1]; exact hub, by rw [e2]; exact hub⟩

/-- Calls that construct, edit, fail, panic and look. -/
def sampleOps : List Op :=
  [.tryPushStr ['h', 'é'], .pushStrTruncate ['€', 'x', 'é'], .tryPush 'é', .remove 0, .remove 1,
   .index (.range 0 1), .drain (.range 0 2) [.back, .front], .tryInsertStr 3 ['y'], .pop, .trim,
   .retain (fun seen _ => if seen.length = 1 then none else some true), .writeFmt [['1'], ['2']],
   .collectStrs [some ['a', 'b'], some ['é']], .extendChars [some 'c', none], .splitOff 2, .add ['!'], .hash,
   .fromUtf16Truncate [0x61, 0xD83D], .eqStr ['a', 'b', '!'], .replaceRange (.range 1 2) ['€'],
   .asMutStr ⟨List.reverse, byteLen_rev⟩, .asStr]

/-- The hypotheses of the theorems above hold for them, from an empty string. -/
example : Holds (stackedStart (ArrayString.new : ArrayString 8)).str [] ∧
    Holds (treeStart (ArrayString.new : ArrayString 8)).str [] ∧
    StackedReady 1 3 20 (stackedStart (ArrayString.new : ArrayString 8)) ∧
    TreeReady 1 3 20 (treeStart (ArrayString.new : ArrayString 8)) ∧
    (∀ op ∈ sampleOps, ∀ t ∈ texts op, 8 + 1 + byteLen t ≤ 20) ∧
    steps 8 sampleOps [] =
      ([.returned .unit, .returned .unit, .failed .outOfBounds, .returned (.char 'h'), .failed .utf8,
        .panicked, .returned (.drained [some 'é', none] []), .returned .unit, .returned (.optChar (some 'x')),
        .returned .unit, .panicked, .returned .unit, .returned .unit, .panicked,
        .returned (.str (utf8 ['é'])), .returned .unit, .returned (.str (utf8 ['a', 'b', '!'] ++ [0xFF])),
        .failed .utf16, .returned (.bool true), .returned .unit, .returned .unit,
        .returned (.str (utf8 ['!', '€', 'a']))], ['!', '€', 'a']) :=
  ⟨holds_new, holds_new, stackedStart_ready _ _, treeStart_ready _ _, by decide, by decide⟩

/-! ## Tests: the rules do forbid something -/

/-- After the owner has written to the string, the reference may not be used: no method can be called. -/
example : ∀ op ∈ [Op.pop, .clear, .len, .asStr, .tryPushStr ['a'], .truncate 1, .drain .full [], .splitOff 0,
      .new, .add [], .hash, .index .full, .trim, .extendChars [], .writeFmt []],
    ((do
      writeAt 0 0 9
      Borrow.exec 1 3 op : M (World Stacked.rules 8) Failure Out) (stackedStart sample)).1 = .ub ∧
    ((do
      writeAt 0 0 9
      Borrow.exec 1 3 op : M (World Tree.rules 8) Failure Out) (treeStart sample)).1 = .ub := by decide

/-- The same for the text argument. -/
example : ∀ op ∈ [Op.tryPushStr ['a'], .tryFromStr ['a'], .fromStrTruncate ['a'], .insertStrTruncate 0 ['a'],
      .replaceRange .full ['a'], .add ['a'], .eqStr ['a'], .writeStr ['a'], .writeFmt [['a']],
      .collectStrs [some ['a']], .extendStrs [some ['a']]],
    ((do
      writeAt 2 9 10
      Borrow.exec 1 3 op : M (World Stacked.rules 8) Failure Out) (stackedStart sample)).1 = .ub ∧
    ((do
      writeAt 2 9 10
      Borrow.exec 1 3 op : M (World Tree.rules 8) Failure Out) (treeStart sample)).1 = .ub := by decide

/-- Take the text, make a call, read the text. -/
def keepText (op : Op) : M (World Stacked.rules 8) Failure Unit := do
  let (t, _) ← asRefStr 1
  let _ ← Borrow.exec 1 3 op
  readAt t 0 4

set_option maxRecDepth 2000 in
/-- A text taken from the string may be read after the string has been looked at, and not after it has
been changed. -/
example : (∀ op ∈ [Op.asStr, .len], (keepText op (stackedStart sample)).1 = .ok ()) ∧
    ∀ op ∈ [Op.pop, .new, .asMutStr ⟨List.reverse, byteLen_rev⟩], (keepText op (stackedStart sample)).1 = .ub := by
  decide

end Verif
