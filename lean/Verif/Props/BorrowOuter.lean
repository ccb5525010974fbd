import Verif.Proofs.BorrowOuter
import Verif.Props.BorrowCache
import Verif.Props.Threads

/-!
# Tree Borrows as in Miri

C62.  C57, C59, C60 and C61 for the version of Tree Borrows in which the end of a protector does not reach
what was made from the protected reference.
-/

namespace Verif
open Spec Borrow

variable {N : Nat}

/-- The references to a byte. -/
def outerAt (w : World Tree.rulesOuter N) (l : Nat) : List Tree.Node := w.mem l

/-- `caller` may be written through on the `N` bytes and the size of the string, `arg` may be read through
on the bytes `N + 1 .. top`, where the text arguments are, and the tags from `w.next` on have not been
used. -/
def OuterReady (caller arg : Tag) (top : Nat) (w : World Tree.rulesOuter N) : Prop :=
  (∀ l, l ≤ N → (Tree.write caller (outerAt w l)).isSome ∧ ∀ x ∈ outerAt w l, x.tag < w.next) ∧
  ∀ l, N < l → l < top →
    (Tree.read arg (outerAt w l)).isSome ∧ ∀ x ∈ outerAt w l, x.tag < w.next

theorem outerReady_iff {caller arg top} {w : World Tree.rulesOuter N} :
    OuterReady caller arg top w ↔ Ready Tree.lawsOuter caller arg top w := by
  have : ∀ st : List Tree.Node, (∀ i ∈ st, i.tag < w.next) ↔ Tree.Below w.next st :=
    fun st => by simp [Tree.Below, Tree.tags]
  constructor
  · exact fun h => ⟨fun l hl => ⟨(h.1 l hl).1, (this _).1 (h.1 l hl).2⟩,
      fun l h1 h2 => ⟨(h.2 l h1 h2).1, (this _).1 (h.2 l h1 h2).2⟩⟩
  · exact fun h => ⟨fun l hl => ⟨(h.1 l hl).1, (this _).2 (h.1 l hl).2⟩,
      fun l h1 h2 => ⟨(h.2 l h1 h2).1, (this _).2 (h.2 l h1 h2).2⟩⟩

/-- The start of a program, as in `treeStart`. -/
def outerStart (s : ArrayString N) : World Tree.rulesOuter N where
  str := s
  mem := (treeStart s).mem
  next := (treeStart s).next

theorem outerStart_ready (s : ArrayString N) (top : Nat) : OuterReady 1 3 top (outerStart s) :=
  treeStart_ready s top

/-- C62: any history of calls through a `&mut ArrayString` that may be used gives the answers and the text
of C03, none of them undefined behaviour, and leaves the references of the caller usable; also when calls
fail or panic. -/
theorem C62_calls [ValidCapacity N] (caller arg : Tag) (top : Nat) (w : World Tree.rulesOuter N)
    (cs : List Char) (ops : List Op) (htop : N < top) (h : OuterReady caller arg top w)
    (hs : Holds w.str cs) (hops : ∀ op ∈ ops, op.Ok)
    (ht : ∀ op ∈ ops, ∀ t ∈ texts op, N + 1 + byteLen t ≤ top) :
    (Borrow.runOps caller arg ops w).1 = (steps N ops cs).1.map Answer.toRes ∧
    Holds (Borrow.runOps caller arg ops w).2.str (steps N ops cs).2 ∧
    OuterReady caller arg top (Borrow.runOps caller arg ops w).2 := by
  rw [outerReady_iff]
  exact borrow_ops (outerReady_iff.1 h) htop hs ops hops ht

/-- C62, for one call on any bytes, valid UTF-8 or not. -/
theorem C62_call [ValidCapacity N] (caller arg : Tag) (top : Nat) (w : World Tree.rulesOuter N) (op : Op)
    (htop : N < top) (h : OuterReady caller arg top w) (hlen : w.str.array.length = N)
    (hl : w.str.size.toNat ≤ N) (ht : ∀ t ∈ texts op, N + 1 + byteLen t ≤ top) :
    ∃ w', Borrow.exec caller arg op w = ((Verif.exec op w.str).1, w') ∧ w'.str = (Verif.exec op w.str).2 ∧
      ((Verif.exec op w.str).1 ≠ .ub → (Verif.exec op w.str).1 ≠ .diverge → OuterReady caller arg top w') := by
  obtain ⟨w', e1, s1, g1⟩ := borrow_op (outerReady_iff.1 h) htop ⟨hlen, hl⟩ op ht
  exact ⟨w', e1, s1, fun h1 h2 => outerReady_iff.2 (g1 ⟨h1, h2⟩).1⟩

/-- C62, for a `CacheString`. -/
theorem C62_cache (caller arg : Tag) (top : Nat) (w : World Tree.rulesOuter 63)
    (cs : List Char) (ops : List Op) (htop : 63 < top) (h : OuterReady caller arg top w)
    (hs : Holds w.str cs) (hops : ∀ op ∈ ops, op.Ok)
    (ht : ∀ op ∈ ops, ∀ t ∈ texts op, 63 + 1 + byteLen t ≤ top) :
    (Cache.runOps caller arg ops w).1 = (steps 63 ops cs).1.map Answer.toRes ∧
    Holds (Cache.runOps caller arg ops w).2.str (steps 63 ops cs).2 ∧
    OuterReady caller arg top (Cache.runOps caller arg ops w).2 := by
  rw [outerReady_iff]
  exact borrow_cacheOps (outerReady_iff.1 h) htop hs ops hops ht

/-- C62: the reference returned by `as_mut` may be read and written through any number of times, in any
order, at any place of the text; then `caller` may be used again. -/
theorem C62_as_mut (caller arg : Tag) (top : Nat) (w : World Tree.rulesOuter N) (as : List Access)
    (htop : N < top) (h : OuterReady caller arg top w) (hl : w.str.size.toNat ≤ N)
    (has : ∀ a ∈ as, a.pos < w.str.size.toNat) :
    ∃ u w₁ w', (asMut caller : M _ Error (Tag × Nat)) w = (.ok (u, w.str.size.toNat), w₁) ∧
      (runAccesses u as : M _ Error Unit) w₁ = (.ok (), w') ∧
      w'.str = ⟨stored w.str.array as, w.str.size⟩ ∧ OuterReady caller arg top w' := by
  obtain ⟨u, w1, w2, e1, e2, s2, g2⟩ := borrow_asMut (outerReady_iff.1 h) htop hl as has
  exact ⟨u, w1, w2, e1, e2, s2, outerReady_iff.2 g2⟩

/-- C62: a program that keeps references to the string and that the borrow checker accepts sees what it
should and has no undefined behaviour. -/
theorem C62_client [ValidCapacity N] (caller arg : Tag) (top : Nat) (w : World Tree.rulesOuter N) (cs : List Char)
    (ps : List Statement) (htop : N < top) (h : OuterReady caller arg top w) (hs : Holds w.str cs)
    (hps : Accepted .start ps) (hok : ∀ p ∈ ps, p.Ok)
    (ht : ∀ p ∈ ps, ∀ t ∈ stmtTexts p, N + 1 + byteLen t ≤ top) :
    ∃ vars' w', performAll caller arg ps [] w =
        ((seeAll N ps ⟨cs, []⟩).1.map (Option.map Answer.toRes), vars', w') ∧
      Holds w'.str (seeAll N ps ⟨cs, []⟩).2.text ∧ OuterReady caller arg top w' := by
  obtain ⟨vars', w', h1, h2, h3⟩ := (core_of_ready (vars := []) (x := ⟨cs, []⟩) (hN := htop)
    (outerReady_iff.1 h) hs rfl rfl).steps hps hok ht
  exact ⟨vars', w', h1, h2, outerReady_iff.2 h3⟩

/-- C62, with branches and loops. -/
theorem C62_plan [ValidCapacity N] (caller arg : Tag) (top : Nat) (w : World Tree.rulesOuter N) (cs : List Char)
    (f : Plan) (n : Nat) (htop : N < top) (h : OuterReady caller arg top w) (hs : Holds w.str cs)
    (hf : f.Accepted n [] .start) (hok : ∀ seen p, f seen = some p → p.Ok)
    (ht : ∀ p ∈ f.trace N n [] ⟨cs, []⟩, ∀ t ∈ stmtTexts p, N + 1 + byteLen t ≤ top) :
    ∃ vars' w', play caller arg f n [] [] w =
        ((seeAll N (f.trace N n [] ⟨cs, []⟩) ⟨cs, []⟩).1.map (Option.map Answer.toRes), vars', w') ∧
      Holds w'.str (seeAll N (f.trace N n [] ⟨cs, []⟩) ⟨cs, []⟩).2.text ∧ OuterReady caller arg top w' := by
  obtain ⟨vars', w', h1, h2, h3⟩ := (core_of_ready (vars := []) (x := ⟨cs, []⟩) (hN := htop)
    (outerReady_iff.1 h) hs rfl rfl).play hf hok ht
  exact ⟨vars', w', h1, h2, outerReady_iff.2 h3⟩

/-- C62: threads that share a string, as in C60. -/
theorem C62_threads [ValidCapacity N] (caller arg : Tag) (top : Nat) (w : World Tree.rulesOuter N) (cs : List Char)
    (jobs : List (List Op)) (htop : N < top) (h : OuterReady caller arg top w) (hs : Holds w.str cs)
    (hjobs : ∀ ops ∈ jobs, ∀ op ∈ ops, op.shared = true ∧ op.Ok)
    (ht : ∀ ops ∈ jobs, ∀ op ∈ ops, ∀ t ∈ texts op, N + 1 + byteLen t ≤ top) :
    ∃ t w₁, (retagShared caller 0 (N + 1) false : M _ Failure _) w = (.ok t, w₁) ∧
      (∀ schedule, let e := interleave (jobs.map (thread t arg)) w₁ schedule
        e.2.str = w.str ∧ e.1.length = jobs.length ∧
        (∀ (i : Nat) ops r, jobs[i]? = some ops → e.1[i]? = some (Reader.done r) → r = .ok (found N cs ops)) ∧
        ((∀ p ∈ e.1, ∃ r, p = Reader.done r) → OuterReady caller arg top e.2)) ∧
      ∀ σ : Nat → Nat, (∀ i, i < jobs.length → ∀ n, ∃ m, n ≤ m ∧ σ m = i) → ∃ n,
        (interleave (jobs.map (thread t arg)) w₁ ((List.range n).map σ)).1 =
          jobs.map fun ops => Reader.done (.ok (found N cs ops)) := by
  simp only [outerReady_iff] at h ⊢
  exact threads_run htop h hs hjobs ht

/-- The hypotheses of the theorems above hold for the samples of C57, C59, C60 and C61. -/
example : OuterReady 1 3 20 (outerStart (ArrayString.new : ArrayString 8)) ∧
    OuterReady 1 3 20 (outerStart sample) ∧ OuterReady 1 3 80 (outerStart (CacheString.new).inner) ∧
    Holds (outerStart (ArrayString.new : ArrayString 8)).str [] ∧ Holds (outerStart sample).str ['h', 'é', ' '] ∧
    Holds (outerStart (CacheString.new).inner).str [] ∧
    (∀ op ∈ sampleOps, ∀ t ∈ texts op, 8 + 1 + byteLen t ≤ 20 ∧ 63 + 1 + byteLen t ≤ 80) ∧
    Accepted .start sampleProgram ∧ (∀ p ∈ sampleProgram, ∀ t ∈ stmtTexts p, 8 + 1 + byteLen t ≤ 20) ∧
    (∀ ops ∈ sampleJobs, ∀ op ∈ ops, op.shared = true ∧ ∀ t ∈ texts op, 8 + 1 + byteLen t ≤ 20) ∧
    (∀ a ∈ [Access.load 0, .store 0 72, .load 3], a.pos < sample.size.toNat) :=
  ⟨outerStart_ready _ _, outerStart_ready _ _, outerStart_ready _ _, holds_new, sample_holds, holds_new,
    by decide, by decide, by decide, by decide, by decide⟩

/-! ## Tests: where the two versions differ, and that both forbid something -/

/-- `fn f(x: &mut u8) -> &mut u8 { *x = 1; x }`, where the result is a new reference, and a read through the
result. -/
def writeAndReturn {R : Rules} : M (World R N) Error Unit := do
  let u ← passUnique 1 0 1 fun x => do
    writeAt x 0 1
    retagUnique x 0 1 false
  readAt u 0 1

/-- The end of the protector hits the result in `Tree.rules`, and not in Miri. -/
example : ((writeAndReturn : M _ Error Unit) (treeStart sample)).1 = .ub ∧
    ((writeAndReturn : M _ Error Unit) (outerStart sample)).1 = .ok () := by decide

/-- It does hit a sibling, which was made before. -/
example : ((do
      let y ← retagUnique 1 0 1 false
      passUnique 1 0 1 fun x => writeAt x 0 1
      readAt y 0 1 : M (World Tree.rulesOuter 8) Error Unit) (outerStart sample)).1 = .ub ∧
    ((do
      let y ← retagUnique 1 0 1 false
      let z ← retagUnique y 0 1 true
      writeAt z 0 1
      writeAt 1 0 1 : M (World Tree.rulesOuter 8) Error Unit) (outerStart sample)).1 = .ub := by decide

/-- After the owner has written to the string, no method can be called. -/
example : ∀ op ∈ [Op.pop, .clear, .len, .asStr, .tryPushStr ['a'], .truncate 1, .drain .full [], .splitOff 0,
      .add [], .hash, .index .full, .trim, .extendChars [], .writeFmt [], .writeStr [], .isEmpty,
      .replaceRange .full [], .asMutStr ⟨List.reverse, byteLen_rev⟩, .indexMut .full ⟨List.reverse, byteLen_rev⟩],
    ((do
      writeAt 0 0 9
      Borrow.exec 1 3 op : M (World Tree.rulesOuter 8) Failure Out) (outerStart sample)).1 = .ub := by decide +kernel

/-- The programs of C59 that the borrow checker rejects have undefined behaviour. -/
example : ∀ ps ∈ rejected, some .ub ∈ (performAll 1 3 ps [] (outerStart sample)).1 := by decide +kernel

end Verif
