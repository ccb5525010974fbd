import Verif.Proofs.FootprintErase
import Verif.Proofs.FootprintOps
import Verif.Props.BorrowOps

/-!
# The accesses of a call cover what it uses

C58.  C54 and C57 say that the accesses in the model are allowed.  They would also hold of a model that
leaves accesses out.  Here the accesses are recorded (`traced`), and compared with the contents of the
string: a call changes bytes only that it has written, and what it returns and writes depends on bytes
only that it has read.
-/

namespace Verif
open Spec Borrow

variable {N : Nat} {R : Rules}

theorem erase_unmarked (w : World R N) : erase (unmarked w) = w := rfl

/-- C58: recording the accesses changes nothing. -/
theorem C58_recording (caller arg : Tag) (w : World R N) (ops : List Op) :
    (Borrow.runOps caller arg ops (unmarked w)).1 = (Borrow.runOps caller arg ops w).1 ∧
    (Borrow.runOps caller arg ops (unmarked w)).2.str = (Borrow.runOps caller arg ops w).2.str ∧
    (∀ l, ((Borrow.runOps caller arg ops (unmarked w)).2.mem l).1 = (Borrow.runOps caller arg ops w).2.mem l) ∧
    (Borrow.runOps caller arg ops (unmarked w)).2.next = (Borrow.runOps caller arg ops w).2.next := by
  have e := er_runOps (self := caller) (arg := arg) (ops := ops) (w := unmarked w)
  rw [erase_unmarked] at e
  rw [e]
  exact ⟨rfl, rfl, fun _ => rfl, rfl⟩

/-- What C58 says of a run from `w` to `w'`, for strings that differ only in bytes the run does not use. -/
theorem ops_cover {caller arg : Tag} {ops : List Op} {w w' : World (traced R) N} {rs : List (Res Failure Out)}
    (hlen : Full w.str) (h : Borrow.runOps caller arg ops w = (rs, w')) (hr : ∀ r ∈ rs, Settled r) :
    Cover False w w' ∧ ∀ s2 : ArrayString N, Full s2 →
      (∀ l ≤ N, ((marks w' l).read = true ∨ (marks w l).written = true) → byteAt s2 l = byteAt w.str l) →
      ∃ s2', Borrow.runOps caller arg ops { w with str := s2 } = (rs, { w' with str := s2' }) ∧
        ∀ l ≤ N, ((marks w' l).written = true ∨ byteAt s2 l = byteAt w.str l) → byteAt s2' l = byteAt w'.str l := by
  induction ops generalizing w rs with
  | nil =>
    cases h
    refine ⟨Cover.refl hlen, fun s2 _ h2 => ⟨s2, rfl, fun l hl h => ?_⟩⟩
    exact h.elim (fun h => h2 l hl (.inr h)) id
  | cons op ops ih =>
    simp only [Borrow.runOps] at h
    generalize e1 : Borrow.exec caller arg op w = x at h
    obtain ⟨r, v⟩ := x
    dsimp only at h
    generalize e2 : Borrow.runOps caller arg ops v = y at h
    obtain ⟨rs', v'⟩ := y
    cases h
    obtain ⟨c1, -, d1⟩ := at_exec caller arg op hlen r v e1 (hr _ List.mem_cons_self)
    obtain ⟨c2, d2⟩ := ih c1.full e2 fun r h => hr r (List.mem_cons_of_mem _ h)
    refine ⟨c1.trans c2, fun s2 f2 h2 => ?_⟩
    obtain ⟨s3, e3, f3, h3⟩ := d1 s2 f2 fun l hl h => h2 l hl (h.imp (c2.read l) id)
    obtain ⟨s4, e4, h4⟩ := d2 s3 f3 fun l hl h => h3 l hl <| by
      rcases h with h | h
      · exact .inr (h2 l hl (.inl h))
      · exact .inl h
    refine ⟨s4, by simp only [Borrow.runOps, e3, e4], fun l hl h => h4 l hl ?_⟩
    rcases h with h | h
    · exact .inl h
    · exact .inr (h3 l hl (.inr h))

/-- C58, for any rules, any memory and any bytes in the string: a history without undefined behaviour
changes bytes of the string only that it has written. -/
theorem C58_writes (caller arg : Tag) (w : World R N) (ops : List Op) (rs : List (Res Failure Out))
    (w' : World (traced R) N) (hlen : w.str.array.length = N)
    (h : Borrow.runOps caller arg ops (unmarked w) = (rs, w'))
    (hub : ∀ r ∈ rs, r ≠ .ub ∧ r ≠ .diverge) :
    ∀ l ≤ N, byteAt w'.str l ≠ byteAt w.str l → (marks w' l).written = true :=
  (ops_cover (w := unmarked w) hlen h hub).1.changed

/-- C58, for any rules, any memory and any bytes in the string: if another string has the same bytes where
the history reads, then the history gives the same results on it and uses tags the same way, and leaves
the same bytes where it writes. -/
theorem C58_reads (caller arg : Tag) (w : World R N) (ops : List Op) (rs : List (Res Failure Out))
    (w' : World (traced R) N) (hlen : w.str.array.length = N)
    (h : Borrow.runOps caller arg ops (unmarked w) = (rs, w'))
    (hub : ∀ r ∈ rs, r ≠ .ub ∧ r ≠ .diverge)
    (s2 : ArrayString N) (hlen2 : s2.array.length = N)
    (h2 : ∀ l ≤ N, (marks w' l).read = true → byteAt s2 l = byteAt w.str l) :
    ∃ s2', Borrow.runOps caller arg ops (unmarked { w with str := s2 }) = (rs, { w' with str := s2' }) ∧
      ∀ l ≤ N, ((marks w' l).written = true ∨ byteAt s2 l = byteAt w.str l) → byteAt s2' l = byteAt w'.str l :=
  (ops_cover (w := unmarked w) hlen h hub).2 s2 hlen2 fun l hl h => h2 l hl (h.resolve_right nofun)

theorem call_cover [ValidCapacity N] {L : Laws R} {caller arg : Tag} {top : Nat} {w : World R N} {op : Op}
    (h : Ready L caller arg top w) (htop : N < top) (hs : Shape w.str)
    (ht : ∀ t ∈ texts op, N + 1 + byteLen t ≤ top) (hr : Settled (Verif.exec op w.str).1) :
    (∀ l ≤ N, byteAt (Verif.exec op w.str).2 l ≠ byteAt w.str l →
      (marks (Borrow.exec caller arg op (unmarked w)).2 l).written = true) ∧
    ∀ s2 : ArrayString N, Shape s2 →
      (∀ l ≤ N, (marks (Borrow.exec caller arg op (unmarked w)).2 l).read = true →
        byteAt s2 l = byteAt w.str l) →
      (Verif.exec op s2).1 = (Verif.exec op w.str).1 ∧
      ∀ l ≤ N, ((marks (Borrow.exec caller arg op (unmarked w)).2 l).written = true ∨
          byteAt s2 l = byteAt w.str l) →
        byteAt (Verif.exec op s2).2 l = byteAt (Verif.exec op w.str).2 l := by
  obtain ⟨v, e1, s1, -⟩ := borrow_op h htop hs op ht
  have er := er_exec (self := caller) (arg := arg) (op := op) (unmarked w)
  rw [erase_unmarked, e1] at er
  have k1 := (Prod.mk.inj er).1
  have k2 : (Borrow.exec caller arg op (unmarked w)).2.str = (Verif.exec op w.str).2 := by
    exact s1 ▸ congrArg World.str (Prod.mk.inj er).2.symm
  have ex : Borrow.exec caller arg op (unmarked w) = ((Borrow.exec caller arg op (unmarked w)).1,
    (Borrow.exec caller arg op (unmarked w)).2) := rfl
  obtain ⟨c, -, d⟩ := at_exec caller arg op (w := unmarked w) hs.1 _ _ ex (k1 ▸ hr)
  refine ⟨fun l hl hc => c.changed l hl (by rw [k2]; exact hc), fun s2 hs2 h2 => ?_⟩
  obtain ⟨s2', e2, -, h3⟩ := d s2 hs2.1 fun l hl h => h2 l hl (h.resolve_right nofun)
  have h' : Ready L caller arg top { w with str := s2 } := h
  obtain ⟨v2, e3, s3, -⟩ := borrow_op h' htop hs2 op ht
  have er2 := er_exec (self := caller) (arg := arg) (op := op) (unmarked { w with str := s2 })
  rw [erase_unmarked, e3, show unmarked { w with str := s2 } = { unmarked w with str := s2 } from rfl, e2] at er2
  have k3 := (Prod.mk.inj er2).1
  have k4 : s2' = (Verif.exec op s2).2 := by
    exact s3 ▸ congrArg World.str (Prod.mk.inj er2).2.symm
  refine ⟨by rw [k3, ← k1], fun l hl hw => ?_⟩
  rw [← k4, ← k2]
  exact h3 l hl hw

/-- C58, Stacked Borrows: the accesses of a call with tags cover what the call without tags does. -/
theorem C58_call_stacked [ValidCapacity N] (caller arg : Tag) (top : Nat) (w : World Stacked.rules N) (op : Op)
    (htop : N < top) (h : StackedReady caller arg top w) (hlen : w.str.array.length = N)
    (hl : w.str.size.toNat ≤ N) (ht : ∀ t ∈ texts op, N + 1 + byteLen t ≤ top)
    (hub : (Verif.exec op w.str).1 ≠ .ub) (hdiv : (Verif.exec op w.str).1 ≠ .diverge) :
    (∀ l ≤ N, byteAt (Verif.exec op w.str).2 l ≠ byteAt w.str l →
      (marks (Borrow.exec caller arg op (unmarked w)).2 l).written = true) ∧
    ∀ s2 : ArrayString N, s2.array.length = N → s2.size.toNat ≤ N →
      (∀ l ≤ N, (marks (Borrow.exec caller arg op (unmarked w)).2 l).read = true →
        byteAt s2 l = byteAt w.str l) →
      (Verif.exec op s2).1 = (Verif.exec op w.str).1 ∧
      ∀ l ≤ N, ((marks (Borrow.exec caller arg op (unmarked w)).2 l).written = true ∨
          byteAt s2 l = byteAt w.str l) →
        byteAt (Verif.exec op s2).2 l = byteAt (Verif.exec op w.str).2 l := by
  obtain ⟨h1, h2⟩ := call_cover (stackedReady_iff.1 h) htop ⟨hlen, hl⟩ ht ⟨hub, hdiv⟩
  exact ⟨h1, fun s2 a b => h2 s2 ⟨a, b⟩⟩

/-- C58, Tree Borrows. -/
theorem C58_call_tree [ValidCapacity N] (caller arg : Tag) (top : Nat) (w : World Tree.rules N) (op : Op)
    (htop : N < top) (h : TreeReady caller arg top w) (hlen : w.str.array.length = N)
    (hl : w.str.size.toNat ≤ N) (ht : ∀ t ∈ texts op, N + 1 + byteLen t ≤ top)
    (hub : (Verif.exec op w.str).1 ≠ .ub) (hdiv : (Verif.exec op w.str).1 ≠ .diverge) :
    (∀ l ≤ N, byteAt (Verif.exec op w.str).2 l ≠ byteAt w.str l →
      (marks (Borrow.exec caller arg op (unmarked w)).2 l).written = true) ∧
    ∀ s2 : ArrayString N, s2.array.length = N → s2.size.toNat ≤ N →
      (∀ l ≤ N, (marks (Borrow.exec caller arg op (unmarked w)).2 l).read = true →
        byteAt s2 l = byteAt w.str l) →
      (Verif.exec op s2).1 = (Verif.exec op w.str).1 ∧
      ∀ l ≤ N, ((marks (Borrow.exec caller arg op (unmarked w)).2 l).written = true ∨
          byteAt s2 l = byteAt w.str l) →
        byteAt (Verif.exec op s2).2 l = byteAt (Verif.exec op w.str).2 l := by
  obtain ⟨h1, h2⟩ := call_cover (treeReady_iff.1 h) htop ⟨hlen, hl⟩ ht ⟨hub, hdiv⟩
  exact ⟨h1, fun s2 a b => h2 s2 ⟨a, b⟩⟩

/-- `sample` with other bytes after the text. -/
def sample' : ArrayString 8 := ⟨[104, 195, 169, 32, 1, 2, 3, 4], 4⟩

/-- The addresses of the string that were read, and those that were written. -/
def usedIn (w : World (traced R) 8) : List Nat × List Nat :=
  ((List.range 9).filter fun l => (marks w l).read, (List.range 9).filter fun l => (marks w l).written)

/-- Calls that read the text, change it, fail, panic and shorten it. -/
def quietOps : List Op :=
  [.truncate 2, .hash, .asMutStr ⟨List.reverse, byteLen_rev⟩, .index (.range 2 3), .pop, .asStr]

set_option maxRecDepth 8000 in
/-- The hypotheses of `C58_writes` and `C58_reads` hold for them: the bytes after the text are not used. -/
example : sample.array.length = 8 ∧ sample'.array.length = 8 ∧ sample' ≠ sample ∧
    (∀ r ∈ (Borrow.runOps 1 3 quietOps (unmarked (stackedStart sample))).1, r ≠ .ub ∧ r ≠ .diverge) ∧
    usedIn (Borrow.runOps 1 3 quietOps (unmarked (stackedStart sample))).2 =
      ([0, 1, 2, 3, 8], [0, 1, 2, 3, 8]) ∧
    ∀ l ≤ 8, (marks (Borrow.runOps 1 3 quietOps (unmarked (stackedStart sample))).2 l).read = true →
      byteAt sample' l = byteAt sample l := by decide

/-- A history with every kind of call has no undefined behaviour either, recorded or not. -/
example : ∀ r ∈ (Borrow.runOps 1 3 sampleOps (unmarked (stackedStart (ArrayString.new : ArrayString 8)))).1,
    r ≠ .ub ∧ r ≠ .diverge := by
  rw [(C58_recording 1 3 _ _).1, (C57_stacked 1 3 20 (stackedStart ArrayString.new) [] sampleOps (by decide) (stackedStart_ready _ _) holds_new
    (by have := usizeMax_ge; simp [sampleOps, Op.Ok, RangeOk, BoundOk, RangeB.range]; omega) (by decide)).1]
  intro r h
  obtain ⟨a, -, rfl⟩ := List.mem_map.1 h
  exact toRes_ne a

/-- The hypotheses of `C58_call_stacked` and `C58_call_tree` hold for a call that appends, and for a string
with other bytes after the text. -/
example : StackedReady 1 3 20 (stackedStart sample) ∧ TreeReady 1 3 20 (treeStart sample) ∧
    sample.array.length = 8 ∧ sample.size.toNat ≤ 8 ∧ sample'.array.length = 8 ∧ sample'.size.toNat ≤ 8 ∧
    (∀ t ∈ texts (.tryPushStr ['a', 'é']), 8 + 1 + byteLen t ≤ 20) ∧
    (Verif.exec (.tryPushStr ['a', 'é']) sample).1 ≠ .ub ∧
    (Verif.exec (.tryPushStr ['a', 'é']) sample).1 ≠ .diverge :=
  have h := exec_step (.tryPushStr ['a', 'é']) trivial sample _ sample_holds
  ⟨stackedStart_ready _ _, treeStart_ready _ _, by decide, by decide, by decide, by decide, by decide,
    by rw [h.1]; exact (toRes_ne _).1, by rw [h.1]; exact (toRes_ne _).2⟩

/-! ## Tests: the bytes that calls use -/

/-- The addresses that a call reads, and those that it writes. -/
def used (op : Op) : List Nat × List Nat := usedIn (Borrow.exec 1 3 op (unmarked (treeStart sample))).2

set_option maxRecDepth 8000 in
example : used .len = ([8], []) ∧ used .clear = ([], [8]) ∧ used .capacity = ([], []) ∧
    used .asStr = ([0, 1, 2, 3, 8], []) ∧ used .pop = ([0, 1, 2, 3, 8], [8]) ∧
    used .new = ([], [0, 1, 2, 3, 4, 5, 6, 7, 8]) ∧
    used (.indexMut (.range 1 3) ⟨List.reverse, byteLen_rev⟩) = ([0, 1, 2, 3, 8], [1, 2]) := by decide

/-- Without the accesses the claims fail: the size changes though nothing is written. -/
example : ∃ w' : World (traced Tree.rules) 8,
    (put { sample with size := 0 } : M _ Failure Unit) (unmarked (treeStart sample)) = (.ok (), w') ∧
    byteAt w'.str 8 ≠ byteAt sample 8 ∧ (marks w' 8).written = false :=
  ⟨_, rfl, by decide, rfl⟩

end Verif
