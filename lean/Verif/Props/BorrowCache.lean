import Verif.Proofs.BorrowCache
import Verif.Props.BorrowOps
import Verif.Props.CacheString

/-!
# Every call of a `CacheString` keeps the aliasing rules

C61.  C57 for `CacheString`: with a tag on every reference, also those that its own methods and `Deref`
make, each call obeys Stacked Borrows and Tree Borrows and gives the answer it gives without tags.
-/

namespace Verif
open Spec Borrow

section
variable {R : Rules} {L : Laws R} {caller arg : Tag} {top : Nat} {w : World R 63} {cs : List Char}

theorem borrow_cacheOp (h : Ready L caller arg top w) (htop : 63 < top) (hs : Shape w.str) (op : Op)
    (ht : ∀ t ∈ texts op, 63 + 1 + byteLen t ≤ top) :
    ∃ w', Cache.exec caller arg op w = ((CacheString.exec op ⟨w.str⟩).1, w') ∧
      (⟨w'.str⟩ : CacheString) = (CacheString.exec op ⟨w.str⟩).2 ∧
      (Settled (CacheString.exec op ⟨w.str⟩).1 → Ready L caller arg top w' ∧ Shape w'.str) := by
  rw [C37_call]
  obtain ⟨w', e1, s1, g1⟩ := Ready.of_sim (sim_cacheExec (hN := htop) (op := op) h hs fun t h => by simpa using ht t h)
  exact ⟨w', e1, by rw [s1], g1⟩

theorem borrow_cacheOps (h : Ready L caller arg top w) (htop : 63 < top) (hs : Holds w.str cs)
    (ops : List Op) (hops : ∀ op ∈ ops, op.Ok) (ht : ∀ op ∈ ops, ∀ t ∈ texts op, 63 + 1 + byteLen t ≤ top) :
    (Cache.runOps caller arg ops w).1 = (steps 63 ops cs).1.map Answer.toRes ∧
    Holds (Cache.runOps caller arg ops w).2.str (steps 63 ops cs).2 ∧
    Ready L caller arg top (Cache.runOps caller arg ops w).2 := by
  induction ops generalizing w cs with
  | nil => exact ⟨rfl, hs, h⟩
  | cons op ops ih =>
    obtain ⟨w', e1, s1, g1⟩ := borrow_cacheOp h htop ⟨hs.1, hs.2.1⟩ op (ht op List.mem_cons_self)
    obtain ⟨h1, h2⟩ := exec_step op (hops op List.mem_cons_self) w.str cs hs
    rw [C37_call] at e1 s1 g1
    dsimp only at e1 s1 g1
    injection s1 with s1
    rw [← s1] at h2
    rw [h1] at g1
    obtain ⟨i1, i2, i3⟩ := ih (g1 (toRes_ne _)).1 h2 (fun op h => hops op (List.mem_cons_of_mem _ h))
      (fun op h => ht op (List.mem_cons_of_mem _ h))
    simp only [Cache.runOps, e1, steps, List.map_cons]
    exact ⟨by rw [i1, h1], i2, i3⟩

theorem borrow_cacheText (h : Ready L caller arg top w) (htop : 63 < top) (hs : Shape w.str) (edit : Bytes → Bytes) :
    ∃ w', (Cache.editText caller edit : M _ Error _) w = ((CacheString.asMut edit ⟨w.str⟩).1, w') ∧
      (⟨w'.str⟩ : CacheString) = (CacheString.asMut (ε := Error) edit ⟨w.str⟩).2 ∧
      (Settled (CacheString.asMut (ε := Error) edit ⟨w.str⟩).1 → Ready L caller arg top w' ∧ Shape w'.str) := by
  obtain ⟨w', e1, s1, g1⟩ := Ready.of_sim (sim_cacheText (ε := Error) (edit := edit) (h.state htop) hs rfl rfl)
  exact ⟨w', e1, by rw [s1]; rfl, g1⟩

end

/-- C61, Stacked Borrows: any history of calls through a `&mut CacheString` that may be used gives the
answers and the text of a bounded string of 63 bytes, none of them undefined behaviour, and leaves the
references of the caller usable; also when calls fail or panic. -/
theorem C61_stacked (caller arg : Tag) (top : Nat) (w : World Stacked.rules 63)
    (cs : List Char) (ops : List Op) (htop : 63 < top) (h : StackedReady caller arg top w)
    (hs : Holds w.str cs) (hops : ∀ op ∈ ops, op.Ok)
    (ht : ∀ op ∈ ops, ∀ t ∈ texts op, 63 + 1 + byteLen t ≤ top) :
    (Cache.runOps caller arg ops w).1 = (steps 63 ops cs).1.map Answer.toRes ∧
    Holds (Cache.runOps caller arg ops w).2.str (steps 63 ops cs).2 ∧
    StackedReady caller arg top (Cache.runOps caller arg ops w).2 := by
  rw [stackedReady_iff]
  exact borrow_cacheOps (stackedReady_iff.1 h) htop hs ops hops ht

/-- C61, Tree Borrows. -/
theorem C61_tree (caller arg : Tag) (top : Nat) (w : World Tree.rules 63)
    (cs : List Char) (ops : List Op) (htop : 63 < top) (h : TreeReady caller arg top w)
    (hs : Holds w.str cs) (hops : ∀ op ∈ ops, op.Ok)
    (ht : ∀ op ∈ ops, ∀ t ∈ texts op, 63 + 1 + byteLen t ≤ top) :
    (Cache.runOps caller arg ops w).1 = (steps 63 ops cs).1.map Answer.toRes ∧
    Holds (Cache.runOps caller arg ops w).2.str (steps 63 ops cs).2 ∧
    TreeReady caller arg top (Cache.runOps caller arg ops w).2 := by
  rw [treeReady_iff]
  exact borrow_cacheOps (treeReady_iff.1 h) htop hs ops hops ht

/-- C61, Stacked Borrows, for one call on any bytes, valid UTF-8 or not: following the rules changes
nothing, and if the call without tags has no undefined behaviour the references stay usable. -/
theorem C61_call_stacked (caller arg : Tag) (top : Nat) (w : World Stacked.rules 63) (op : Op)
    (htop : 63 < top) (h : StackedReady caller arg top w) (hlen : w.str.array.length = 63)
    (hl : w.str.size.toNat ≤ 63) (ht : ∀ t ∈ texts op, 63 + 1 + byteLen t ≤ top) :
    ∃ w', Cache.exec caller arg op w = ((CacheString.exec op ⟨w.str⟩).1, w') ∧
      (⟨w'.str⟩ : CacheString) = (CacheString.exec op ⟨w.str⟩).2 ∧
      ((CacheString.exec op ⟨w.str⟩).1 ≠ .ub → (CacheString.exec op ⟨w.str⟩).1 ≠ .diverge →
        StackedReady caller arg top w') := by
  obtain ⟨w', e1, s1, g1⟩ := borrow_cacheOp (stackedReady_iff.1 h) htop ⟨hlen, hl⟩ op ht
  exact ⟨w', e1, s1, fun h1 h2 => stackedReady_iff.2 (g1 ⟨h1, h2⟩).1⟩

/-- C61, Tree Borrows, for one call on any bytes. -/
theorem C61_call_tree (caller arg : Tag) (top : Nat) (w : World Tree.rules 63) (op : Op)
    (htop : 63 < top) (h : TreeReady caller arg top w) (hlen : w.str.array.length = 63)
    (hl : w.str.size.toNat ≤ 63) (ht : ∀ t ∈ texts op, 63 + 1 + byteLen t ≤ top) :
    ∃ w', Cache.exec caller arg op w = ((CacheString.exec op ⟨w.str⟩).1, w') ∧
      (⟨w'.str⟩ : CacheString) = (CacheString.exec op ⟨w.str⟩).2 ∧
      ((CacheString.exec op ⟨w.str⟩).1 ≠ .ub → (CacheString.exec op ⟨w.str⟩).1 ≠ .diverge →
        TreeReady caller arg top w') := by
  obtain ⟨w', e1, s1, g1⟩ := borrow_cacheOp (treeReady_iff.1 h) htop ⟨hlen, hl⟩ op ht
  exact ⟨w', e1, s1, fun h1 h2 => treeReady_iff.2 (g1 ⟨h1, h2⟩).1⟩

/-- C61: the same for an edit of the text through `as_mut` or `borrow_mut`, on any bytes and whatever the
edit does. -/
theorem C61_asMut (caller arg : Tag) (top : Nat) (edit : Bytes → Bytes) (htop : 63 < top) :
    (∀ w : World Stacked.rules 63, StackedReady caller arg top w →
      w.str.array.length = 63 → w.str.size.toNat ≤ 63 →
      ∃ w', (Cache.editText caller edit : M _ Error _) w = ((CacheString.asMut edit ⟨w.str⟩).1, w') ∧
        (⟨w'.str⟩ : CacheString) = (CacheString.asMut (ε := Error) edit ⟨w.str⟩).2 ∧
        ((CacheString.asMut (ε := Error) edit ⟨w.str⟩).1 ≠ .ub →
          (CacheString.asMut (ε := Error) edit ⟨w.str⟩).1 ≠ .diverge → StackedReady caller arg top w')) ∧
    (∀ w : World Tree.rules 63, TreeReady caller arg top w →
      w.str.array.length = 63 → w.str.size.toNat ≤ 63 →
      ∃ w', (Cache.editText caller edit : M _ Error _) w = ((CacheString.asMut edit ⟨w.str⟩).1, w') ∧
        (⟨w'.str⟩ : CacheString) = (CacheString.asMut (ε := Error) edit ⟨w.str⟩).2 ∧
        ((CacheString.asMut (ε := Error) edit ⟨w.str⟩).1 ≠ .ub →
          (CacheString.asMut (ε := Error) edit ⟨w.str⟩).1 ≠ .diverge → TreeReady caller arg top w')) := by
  refine ⟨fun w h h1 h2 => ?_, fun w h h1 h2 => ?_⟩
  · obtain ⟨w', e1, s1, g1⟩ := borrow_cacheText (stackedReady_iff.1 h) htop ⟨h1, h2⟩ edit
    exact ⟨w', e1, s1, fun h1 h2 => stackedReady_iff.2 (g1 ⟨h1, h2⟩).1⟩
  · obtain ⟨w', e1, s1, g1⟩ := borrow_cacheText (treeReady_iff.1 h) htop ⟨h1, h2⟩ edit
    exact ⟨w', e1, s1, fun h1 h2 => treeReady_iff.2 (g1 ⟨h1, h2⟩).1⟩

/-- C61: a program that owns a `CacheString`, borrows it once and makes any history of calls through the
borrow has no undefined behaviour under either set of rules, and the answers are those of C37. -/
theorem C61_program (c : CacheString) (cs : List Char) (ops : List Op)
    (hs : Holds c.inner cs) (hops : ∀ op ∈ ops, op.Ok) :
    (Cache.runOps 1 3 ops (stackedStart c.inner)).1 = (CacheString.runOps ops c).1 ∧
    (Cache.runOps 1 3 ops (treeStart c.inner)).1 = (CacheString.runOps ops c).1 ∧
    Res.ub ∉ (Cache.runOps 1 3 ops (stackedStart c.inner)).1 ∧
    Res.ub ∉ (Cache.runOps 1 3 ops (treeStart c.inner)).1 := by
  obtain ⟨top, h1, h2⟩ := exists_room 63 (ops.flatMap texts)
  have h2 : ∀ op ∈ ops, ∀ t ∈ texts op, 63 + 1 + byteLen t ≤ top :=
    fun op ho t ht => h2 t (List.mem_flatMap.2 ⟨op, ho, ht⟩)
  have e1 := (C61_stacked 1 3 top (stackedStart c.inner) cs ops h1 (stackedStart_ready _ top) hs hops h2).1
  have e2 := (C61_tree 1 3 top (treeStart c.inner) cs ops h1 (treeStart_ready _ top) hs hops h2).1
  have hub : Res.ub ∉ (steps 63 ops cs).1.map Answer.toRes := by
    intro h
    obtain ⟨a, _, ha⟩ := List.mem_map.1 h
    exact (toRes_ne a).1 ha
  rw [(C37_refinement ops hops c cs hs).1]
  exact ⟨e1, e2, by rw [e1]; exact hub, by rw [e2]; exact hub⟩

/-- The hypotheses of the theorems above hold for the calls of C57, from an empty string. -/
example : Holds (stackedStart (CacheString.new).inner).str [] ∧
    Holds (treeStart (CacheString.new).inner).str [] ∧
    StackedReady 1 3 80 (stackedStart (CacheString.new).inner) ∧
    TreeReady 1 3 80 (treeStart (CacheString.new).inner) ∧
    (∀ op ∈ sampleOps, ∀ t ∈ texts op, 63 + 1 + byteLen t ≤ 80) ∧
    steps 63 sampleOps [] =
      ([.returned .unit, .returned .unit, .returned .unit, .returned (.char 'h'), .failed .utf8,
        .panicked, .returned (.drained [some 'é', none] []), .returned .unit, .returned (.optChar (some 'é')),
        .returned .unit, .panicked, .returned .unit, .returned .unit, .panicked,
        .returned (.str (utf8 ['é'])), .returned .unit, .returned (.str (utf8 ['a', 'b', '!'] ++ [0xFF])),
        .failed .utf16, .returned (.bool true), .returned .unit, .returned .unit,
        .returned (.str (utf8 ['!', '€', 'a']))], ['!', '€', 'a']) :=
  ⟨holds_new, holds_new, stackedStart_ready _ _, treeStart_ready _ _, by decide, by decide⟩

/-! ## Tests: the rules do forbid something

On 8 bytes rather than 63. -/

/-- After the owner has written to the string, the reference may not be used: no method can be called. -/
example : ∀ op ∈ [Op.pop, .clear, .len, .asStr, .tryPushStr ['a'], .truncate 1, .drain .full [], .splitOff 0,
      .new, .add [], .hash, .index .full, .trim, .extendChars [], .writeFmt [], .writeStr [], .isEmpty,
      .asMutStr ⟨List.reverse, byteLen_rev⟩, .indexMut .full ⟨List.reverse, byteLen_rev⟩],
    ((do
      writeAt 0 0 9
      Cache.exec 1 3 op : M (World Stacked.rules 8) Failure Out) (stackedStart sample)).1 = .ub ∧
    ((do
      writeAt 0 0 9
      Cache.exec 1 3 op : M (World Tree.rules 8) Failure Out) (treeStart sample)).1 = .ub := by decide

/-- The same for the text argument. -/
example : ∀ op ∈ [Op.tryPushStr ['a'], .tryFromStr ['a'], .fromStrTruncate ['a'], .insertStrTruncate 0 ['a'],
      .replaceRange .full ['a'], .add ['a'], .eqStr ['a'], .writeStr ['a'], .writeFmt [['a']],
      .collectStrs [some ['a']], .extendStrs [some ['a']]],
    ((do
      writeAt 2 9 10
      Cache.exec 1 3 op : M (World Stacked.rules 8) Failure Out) (stackedStart sample)).1 = .ub ∧
    ((do
      writeAt 2 9 10
      Cache.exec 1 3 op : M (World Tree.rules 8) Failure Out) (treeStart sample)).1 = .ub := by decide +kernel

/-- What `deref` gives back may be read until the string is changed, and not written through. -/
example :
    ((do
      let v ← Cache.deref 1
      let _ ← Cache.exec 1 3 .len
      let _ ← Borrow.exec v 3 .asStr : M (World Stacked.rules 8) Failure Unit) (stackedStart sample)).1 = .ok () ∧
    ((do
      let v ← Cache.deref 1
      let _ ← Cache.exec 1 3 .pop
      let _ ← Borrow.exec v 3 .asStr : M (World Stacked.rules 8) Failure Unit) (stackedStart sample)).1 = .ub ∧
    ((do
      let v ← Cache.deref 1
      let _ ← Cache.exec 1 3 .pop
      let _ ← Borrow.exec v 3 .asStr : M (World Tree.rules 8) Failure Unit) (treeStart sample)).1 = .ub ∧
    ((do
      let v ← Cache.deref 1
      let _ ← Borrow.exec v 3 .clear : M (World Stacked.rules 8) Failure Unit) (stackedStart sample)).1 = .ub ∧
    ((do
      let v ← Cache.deref 1
      let _ ← Borrow.exec v 3 .clear : M (World Tree.rules 8) Failure Unit) (treeStart sample)).1 = .ub := by decide +kernel

/-- What `deref_mut` gives back may be used until the string is changed through something else. -/
example :
    ((do
      let v ← Cache.derefMut 1
      let _ ← Borrow.exec v 3 .pop
      let _ ← Borrow.exec v 3 .clear : M (World Stacked.rules 8) Failure Unit) (stackedStart sample)).1 = .ok () ∧
    ((do
      let v ← Cache.derefMut 1
      let _ ← Cache.exec 1 3 .pop
      let _ ← Borrow.exec v 3 .clear : M (World Stacked.rules 8) Failure Unit) (stackedStart sample)).1 = .ub ∧
    ((do
      let v ← Cache.derefMut 1
      let _ ← Cache.exec 1 3 .pop
      let _ ← Borrow.exec v 3 .clear : M (World Tree.rules 8) Failure Unit) (treeStart sample)).1 = .ub := by decide +kernel

end Verif
