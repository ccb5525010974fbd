import Verif.Proofs.MachineCacheChars
import Verif.Props.MachineCache
import Verif.Props.MachineChars

/-!
# The characters of a `CacheString`, one byte at a time

C71 for `CacheString`; and for both strings what a program that owns the memory sees.
-/

namespace Verif
open Spec Borrow
open Machine (Mem Stores abs stores_iff sim_cacheChars_exec Valid)

section
variable {R : Rules} {L : Laws R} {caller arg : Tag} {top : Nat} {m : Mem R 63} {cs : List Char}

theorem chars_cacheOp (h : Ready L caller arg top (abs m)) (htop : 63 < top) (hs : Holds m.str cs)
    (op : Op) (hop : op.Ok) (ht : ∀ t ∈ texts op, 63 + 1 + byteLen t ≤ top) :
    (Machine.Cache.Chars.exec caller arg op m).1 = (step 63 op cs).1.toRes ∧
      Holds (Machine.Cache.Chars.exec caller arg op m).2.str (step 63 op cs).2 ∧
      Ready L caller arg top (abs (Machine.Cache.Chars.exec caller arg op m).2) ∧
      (∀ l, top ≤ l → (Machine.Cache.Chars.exec caller arg op m).2.bytes l = m.bytes l) := by
  obtain ⟨w', e1, s1, g1⟩ := Ready.of_sim (sim_cacheChars_exec (caller := caller) (op := op) (h.state htop)
    (show Borrow.Shape (abs m).str from ⟨hs.1, hs.2.1⟩)
    (fun t h => by rw [length_utf8]; exact ht t h) (fun _ _ _ => Or.inl rfl) rfl rfl)
  obtain ⟨h1, h2⟩ := exec_step op hop m.str cs hs
  have hr : Settled (Verif.exec op m.str).1 := by
    rw [h1]
    exact toRes_ne _
  obtain ⟨m', k1, k2, k3, k4⟩ := Machine.sim_cacheChars_exec (caller := caller) (arg := arg) (op := op) (K := top - 63 - 1)
    (show Valid 63 m.bytes from ⟨cs, hs⟩) (fun t h => by have := ht t h; omega) m rfl _ _ e1 hr
  rw [k1]
  dsimp only
  refine ⟨h1, ?_, ?_, fun l hl => k4 l (by omega)⟩
  · have k6 : m'.str = (Verif.exec op m.str).2 := (congrArg World.str k2).trans s1
    rwa [k6]
  · rw [k2]
    exact (g1 hr).1

theorem chars_cacheOps (h : Ready L caller arg top (abs m)) (htop : 63 < top) (hs : Holds m.str cs)
    (ops : List Op) (hops : ∀ op ∈ ops, op.Ok) (ht : ∀ op ∈ ops, ∀ t ∈ texts op, 63 + 1 + byteLen t ≤ top) :
    (Machine.Cache.Chars.runOps caller arg ops m).1 = (steps 63 ops cs).1.map Answer.toRes ∧
    Holds (Machine.Cache.Chars.runOps caller arg ops m).2.str (steps 63 ops cs).2 ∧
    Ready L caller arg top (abs (Machine.Cache.Chars.runOps caller arg ops m).2) ∧
    (∀ l, top ≤ l → (Machine.Cache.Chars.runOps caller arg ops m).2.bytes l = m.bytes l) := by
  induction ops generalizing m cs with
  | nil => exact ⟨rfl, hs, h, fun _ _ => rfl⟩
  | cons op ops ih =>
    obtain ⟨e1, h1, g1, f1⟩ := chars_cacheOp h htop hs op (hops op List.mem_cons_self) (ht op List.mem_cons_self)
    obtain ⟨i1, i2, i3, i4⟩ := ih g1 h1 (fun op h => hops op (List.mem_cons_of_mem _ h))
      (fun op h => ht op (List.mem_cons_of_mem _ h))
    simp only [Machine.Cache.Chars.runOps, steps, List.map_cons]
    exact ⟨by rw [i1, e1], i2, i3, fun l hl => (i4 l hl).trans (f1 l hl)⟩

end

/-- C71 for `CacheString`, Stacked Borrows. -/
theorem C71_cache_stacked (caller arg : Tag) (top : Nat) (m : Mem Stacked.rules 63)
    (cs : List Char) (ops : List Op) (htop : 63 < top) (h : StackedReady caller arg top (abs m))
    (hs : Stores m cs) (hops : ∀ op ∈ ops, op.Ok)
    (ht : ∀ op ∈ ops, ∀ t ∈ texts op, 63 + 1 + byteLen t ≤ top) :
    (Machine.Cache.Chars.runOps caller arg ops m).1 = (steps 63 ops cs).1.map Answer.toRes ∧
    Stores (Machine.Cache.Chars.runOps caller arg ops m).2 (steps 63 ops cs).2 ∧
    StackedReady caller arg top (abs (Machine.Cache.Chars.runOps caller arg ops m).2) ∧
    (∀ l, top ≤ l → (Machine.Cache.Chars.runOps caller arg ops m).2.bytes l = m.bytes l) := by
  rw [stackedReady_iff, stores_iff]
  exact chars_cacheOps (stackedReady_iff.1 h) htop (stores_iff.1 hs) ops hops ht

/-- C71 for `CacheString`, Tree Borrows. -/
theorem C71_cache_tree (caller arg : Tag) (top : Nat) (m : Mem Tree.rules 63)
    (cs : List Char) (ops : List Op) (htop : 63 < top) (h : TreeReady caller arg top (abs m))
    (hs : Stores m cs) (hops : ∀ op ∈ ops, op.Ok)
    (ht : ∀ op ∈ ops, ∀ t ∈ texts op, 63 + 1 + byteLen t ≤ top) :
    (Machine.Cache.Chars.runOps caller arg ops m).1 = (steps 63 ops cs).1.map Answer.toRes ∧
    Stores (Machine.Cache.Chars.runOps caller arg ops m).2 (steps 63 ops cs).2 ∧
    TreeReady caller arg top (abs (Machine.Cache.Chars.runOps caller arg ops m).2) ∧
    (∀ l, top ≤ l → (Machine.Cache.Chars.runOps caller arg ops m).2.bytes l = m.bytes l) := by
  rw [treeReady_iff, stores_iff]
  exact chars_cacheOps (treeReady_iff.1 h) htop (stores_iff.1 hs) ops hops ht

/-- C71 for `CacheString`, Tree Borrows as in Miri (C62). -/
theorem C71_cache_outer (caller arg : Tag) (top : Nat) (m : Mem Tree.rulesOuter 63)
    (cs : List Char) (ops : List Op) (htop : 63 < top) (h : OuterReady caller arg top (abs m))
    (hs : Stores m cs) (hops : ∀ op ∈ ops, op.Ok)
    (ht : ∀ op ∈ ops, ∀ t ∈ texts op, 63 + 1 + byteLen t ≤ top) :
    (Machine.Cache.Chars.runOps caller arg ops m).1 = (steps 63 ops cs).1.map Answer.toRes ∧
    Stores (Machine.Cache.Chars.runOps caller arg ops m).2 (steps 63 ops cs).2 ∧
    OuterReady caller arg top (abs (Machine.Cache.Chars.runOps caller arg ops m).2) ∧
    (∀ l, top ≤ l → (Machine.Cache.Chars.runOps caller arg ops m).2.bytes l = m.bytes l) := by
  rw [outerReady_iff, stores_iff]
  exact chars_cacheOps (outerReady_iff.1 h) htop (stores_iff.1 hs) ops hops ht

/-- C71: a program that owns memory with any bytes in it that store a text, lends it once and makes any history of
calls, is not affected by how the characters are found: the calls that decode byte by byte give the answers of those
that load the whole text first (C66, C67), store the same text, and have no undefined behaviour. -/
theorem C71_program (cs : List Char) (ops : List Op) (hops : ∀ op ∈ ops, op.Ok) :
    (∀ (N : Nat) [ValidCapacity N] (bytes : Nat → UInt8), byteLen cs ≤ N → (bytes N).toNat = byteLen cs →
      (∀ i, i < byteLen cs → (utf8 cs)[i]? = some (bytes i)) →
      (Machine.Chars.runOps 1 3 ops (stackedMem bytes : Mem Stacked.rules N)).1 =
        (Machine.runOps 1 3 ops (stackedMem bytes : Mem Stacked.rules N)).1 ∧
      (Machine.Chars.runOps 1 3 ops (treeMem bytes : Mem Tree.rules N)).1 =
        (Machine.runOps 1 3 ops (treeMem bytes : Mem Tree.rules N)).1 ∧
      Res.ub ∉ (Machine.Chars.runOps 1 3 ops (stackedMem bytes : Mem Stacked.rules N)).1 ∧
      Res.ub ∉ (Machine.Chars.runOps 1 3 ops (treeMem bytes : Mem Tree.rules N)).1 ∧
      Stores (Machine.Chars.runOps 1 3 ops (stackedMem bytes : Mem Stacked.rules N)).2 (steps N ops cs).2 ∧
      Stores (Machine.Chars.runOps 1 3 ops (treeMem bytes : Mem Tree.rules N)).2 (steps N ops cs).2) ∧
    ∀ (bytes : Nat → UInt8), byteLen cs ≤ 63 → (bytes 63).toNat = byteLen cs →
      (∀ i, i < byteLen cs → (utf8 cs)[i]? = some (bytes i)) →
      (Machine.Cache.Chars.runOps 1 3 ops (stackedMem bytes : Mem Stacked.rules 63)).1 =
        (Machine.Cache.runOps 1 3 ops (stackedMem bytes : Mem Stacked.rules 63)).1 ∧
      (Machine.Cache.Chars.runOps 1 3 ops (treeMem bytes : Mem Tree.rules 63)).1 =
        (Machine.Cache.runOps 1 3 ops (treeMem bytes : Mem Tree.rules 63)).1 ∧
      Res.ub ∉ (Machine.Cache.Chars.runOps 1 3 ops (stackedMem bytes : Mem Stacked.rules 63)).1 ∧
      Res.ub ∉ (Machine.Cache.Chars.runOps 1 3 ops (treeMem bytes : Mem Tree.rules 63)).1 ∧
      Stores (Machine.Cache.Chars.runOps 1 3 ops (stackedMem bytes : Mem Stacked.rules 63)).2 (steps 63 ops cs).2 ∧
      Stores (Machine.Cache.Chars.runOps 1 3 ops (treeMem bytes : Mem Tree.rules 63)).2 (steps 63 ops cs).2 := by
  have fine (N : Nat) : Res.ub ∉ (steps N ops cs).1.map Answer.toRes := fun hu => by
    obtain ⟨a, _, ha⟩ := List.mem_map.1 hu
    exact (toRes_ne a).1 ha
  have room (N : Nat) : ∃ top, N < top ∧ ∀ op ∈ ops, ∀ t ∈ texts op, N + 1 + byteLen t ≤ top := by
    obtain ⟨top, h1, h2⟩ := exists_room N (ops.flatMap texts)
    exact ⟨top, h1, fun op ho t ht => h2 t (List.mem_flatMap.2 ⟨op, ho, ht⟩)⟩
  refine ⟨fun N _ bytes hfit hsize htext => ?_, fun bytes hfit hsize htext => ?_⟩
  · obtain ⟨top, h1, h2⟩ := room N
    obtain ⟨a1, a2⟩ := C71_stacked 1 3 top (stackedMem bytes) cs ops h1 (stackedMem_ready bytes top) ⟨hfit, hsize, htext⟩ hops h2
    obtain ⟨b1, b2⟩ := C71_tree 1 3 top (treeMem bytes) cs ops h1 (treeMem_ready bytes top) ⟨hfit, hsize, htext⟩ hops h2
    obtain ⟨c1, -⟩ := C66_stacked 1 3 top (stackedMem bytes) cs ops h1 (stackedMem_ready bytes top) ⟨hfit, hsize, htext⟩ hops h2
    obtain ⟨d1, -⟩ := C66_tree 1 3 top (treeMem bytes) cs ops h1 (treeMem_ready bytes top) ⟨hfit, hsize, htext⟩ hops h2
    exact ⟨a1.trans c1.symm, b1.trans d1.symm, a2.1, b2.1, a2.2.1, b2.2.1⟩
  · obtain ⟨top, h1, h2⟩ := room 63
    obtain ⟨a1, a2, -⟩ := C71_cache_stacked 1 3 top (stackedMem bytes) cs ops h1 (stackedMem_ready bytes top) ⟨hfit, hsize, htext⟩ hops h2
    obtain ⟨b1, b2, -⟩ := C71_cache_tree 1 3 top (treeMem bytes) cs ops h1 (treeMem_ready bytes top) ⟨hfit, hsize, htext⟩ hops h2
    obtain ⟨c1, -⟩ := C67_stacked 1 3 top (stackedMem bytes) cs ops h1 (stackedMem_ready bytes top) ⟨hfit, hsize, htext⟩ hops h2
    obtain ⟨d1, -⟩ := C67_tree 1 3 top (treeMem bytes) cs ops h1 (treeMem_ready bytes top) ⟨hfit, hsize, htext⟩ hops h2
    exact ⟨a1.trans c1.symm, b1.trans d1.symm, a1 ▸ fine 63, b1 ▸ fine 63, a2, b2⟩

/-! ## Example -/

/-- Memory of a `CacheString` that stores " é€ ", `0xFF` elsewhere. -/
def charCacheBytes (l : Nat) : UInt8 :=
  if l = 63 then 7 else ([0x20, 0xC3, 0xA9, 0xE2, 0x82, 0xAC, 0x20][l]?).getD 0xFF

/-- The hypotheses of the theorems hold of it and the calls of `charOps`; those of `C71_program` also for a string of
capacity 8. -/
example : Stores (stackedMem charCacheBytes : Mem Stacked.rules 63) [' ', 'é', '€', ' '] ∧
    Stores (treeMem charCacheBytes : Mem Tree.rules 63) [' ', 'é', '€', ' '] ∧
    StackedReady 1 3 80 (abs (stackedMem charCacheBytes : Mem Stacked.rules 63)) ∧
    TreeReady 1 3 80 (abs (treeMem charCacheBytes : Mem Tree.rules 63)) ∧
    OuterReady 1 3 80
      (abs (⟨charCacheBytes, (treeMem charCacheBytes : Mem Tree.rules 63).mem, 4⟩ : Mem Tree.rulesOuter 63)) ∧
    (∀ op ∈ charOps, op.Ok) ∧ (∀ op ∈ charOps, ∀ t ∈ texts op, 63 + 1 + byteLen t ≤ 80) ∧
    byteLen [' ', 'é', '€', ' '] ≤ 8 ∧ (charBytes 8).toNat = byteLen [' ', 'é', '€', ' '] ∧
    ∀ i, i < byteLen [' ', 'é', '€', ' '] → (utf8 [' ', 'é', '€', ' '])[i]? = some (charBytes i) :=
  ⟨⟨by decide, by decide, by decide⟩, ⟨by decide, by decide, by decide⟩, stackedMem_ready _ _, treeMem_ready _ _,
    treeMem_ready (N := 63) charCacheBytes 80, by simp [charOps, Op.Ok, RangeOk], by decide, by decide, by decide,
    by decide⟩

end Verif
