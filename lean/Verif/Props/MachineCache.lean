import Verif.Proofs.MachineCache
import Verif.Props.BorrowCache
import Verif.Props.Machine

/-!
# The calls of a `CacheString` on nothing but bytes

C67.  C66 for `CacheString`: also with the references that its own methods and `Deref` make, the answers,
computed from what was loaded, are those of a bounded string of 63 bytes.
-/

namespace Verif
open Spec Borrow
open Machine (Mem Stores Given abs strOf stores_iff oneText sim_cacheExec Valid)

section
variable {R : Rules} {L : Laws R} {caller arg : Tag} {top : Nat} {m : Mem R 63} {cs : List Char}

theorem machine_cacheOp (h : Ready L caller arg top (abs m)) (htop : 63 < top) (hs : Holds m.str cs)
    (op : Op) (hop : op.Ok) (ht : ∀ t ∈ texts op, 63 + 1 + byteLen t ≤ top) :
    (Machine.Cache.exec caller arg op m).1 = (step 63 op cs).1.toRes ∧
      Holds (Machine.Cache.exec caller arg op m).2.str (step 63 op cs).2 ∧
      Ready L caller arg top (abs (Machine.Cache.exec caller arg op m).2) ∧
      (∀ l, top ≤ l → (Machine.Cache.exec caller arg op m).2.bytes l = m.bytes l) ∧
      ∀ w, oneText op = some w → Given (Machine.Cache.exec caller arg op m).2 w := by
  obtain ⟨w', e1, s1, g1⟩ := borrow_cacheOp h htop (show Borrow.Shape (abs m).str from ⟨hs.1, hs.2.1⟩) op ht
  obtain ⟨h1, h2⟩ := exec_step op hop m.str cs hs
  rw [C37_call] at e1 s1 g1
  dsimp only at e1 s1 g1
  injection s1 with s1
  have hr : Settled (Verif.exec op m.str).1 := by
    rw [h1]
    exact toRes_ne _
  obtain ⟨m', k1, k2, k3, k4⟩ := sim_cacheExec (caller := caller) (arg := arg) (op := op) (K := top - 63 - 1)
    (show Valid 63 m.bytes from ⟨cs, hs⟩) (fun t h => by have := ht t h; omega) m rfl _ _ e1 hr
  rw [k1]
  dsimp only
  refine ⟨h1, ?_, ?_, fun l hl => k4 l (by omega), fun w hw i hi => ?_⟩
  · have k6 : m'.str = (Verif.exec op m.str).2 := (congrArg World.str k2).trans s1
    rwa [k6]
  · rw [k2]
    exact (g1 hr).1
  · exact k3 w hw i (by rwa [length_utf8])

theorem machine_cacheOps (h : Ready L caller arg top (abs m)) (htop : 63 < top) (hs : Holds m.str cs)
    (ops : List Op) (hops : ∀ op ∈ ops, op.Ok) (ht : ∀ op ∈ ops, ∀ t ∈ texts op, 63 + 1 + byteLen t ≤ top) :
    (Machine.Cache.runOps caller arg ops m).1 = (steps 63 ops cs).1.map Answer.toRes ∧
    Holds (Machine.Cache.runOps caller arg ops m).2.str (steps 63 ops cs).2 ∧
    Ready L caller arg top (abs (Machine.Cache.runOps caller arg ops m).2) ∧
    (∀ l, top ≤ l → (Machine.Cache.runOps caller arg ops m).2.bytes l = m.bytes l) := by
  induction ops generalizing m cs with
  | nil => exact ⟨rfl, hs, h, fun _ _ => rfl⟩
  | cons op ops ih =>
    obtain ⟨e1, h1, g1, f1, -⟩ := machine_cacheOp h htop hs op (hops op List.mem_cons_self) (ht op List.mem_cons_self)
    obtain ⟨i1, i2, i3, i4⟩ := ih g1 h1 (fun op h => hops op (List.mem_cons_of_mem _ h))
      (fun op h => ht op (List.mem_cons_of_mem _ h))
    simp only [Machine.Cache.runOps, steps, List.map_cons]
    exact ⟨by rw [i1, e1], i2, i3, fun l hl => (i4 l hl).trans (f1 l hl)⟩

end

/-- C67, Stacked Borrows: from memory that stores a text, any history of calls of a `CacheString`, each
computing with the bytes that it loads, gives the answers of a bounded string of 63 bytes, stores its text,
has no undefined behaviour, and leaves the references of the caller usable; also when calls fail or panic.
Beyond the string and the texts of the calls no byte has changed. -/
theorem C67_stacked (caller arg : Tag) (top : Nat) (m : Mem Stacked.rules 63)
    (cs : List Char) (ops : List Op) (htop : 63 < top) (h : StackedReady caller arg top (abs m))
    (hs : Stores m cs) (hops : ∀ op ∈ ops, op.Ok)
    (ht : ∀ op ∈ ops, ∀ t ∈ texts op, 63 + 1 + byteLen t ≤ top) :
    (Machine.Cache.runOps caller arg ops m).1 = (steps 63 ops cs).1.map Answer.toRes ∧
    Stores (Machine.Cache.runOps caller arg ops m).2 (steps 63 ops cs).2 ∧
    StackedReady caller arg top (abs (Machine.Cache.runOps caller arg ops m).2) ∧
    (∀ l, top ≤ l → (Machine.Cache.runOps caller arg ops m).2.bytes l = m.bytes l) := by
  rw [stackedReady_iff, stores_iff]
  exact machine_cacheOps (stackedReady_iff.1 h) htop (stores_iff.1 hs) ops hops ht

/-- C67, Tree Borrows. -/
theorem C67_tree (caller arg : Tag) (top : Nat) (m : Mem Tree.rules 63)
    (cs : List Char) (ops : List Op) (htop : 63 < top) (h : TreeReady caller arg top (abs m))
    (hs : Stores m cs) (hops : ∀ op ∈ ops, op.Ok)
    (ht : ∀ op ∈ ops, ∀ t ∈ texts op, 63 + 1 + byteLen t ≤ top) :
    (Machine.Cache.runOps caller arg ops m).1 = (steps 63 ops cs).1.map Answer.toRes ∧
    Stores (Machine.Cache.runOps caller arg ops m).2 (steps 63 ops cs).2 ∧
    TreeReady caller arg top (abs (Machine.Cache.runOps caller arg ops m).2) ∧
    (∀ l, top ≤ l → (Machine.Cache.runOps caller arg ops m).2.bytes l = m.bytes l) := by
  rw [treeReady_iff, stores_iff]
  exact machine_cacheOps (treeReady_iff.1 h) htop (stores_iff.1 hs) ops hops ht

/-- C67, Tree Borrows as in Miri (C62). -/
theorem C67_outer (caller arg : Tag) (top : Nat) (m : Mem Tree.rulesOuter 63)
    (cs : List Char) (ops : List Op) (htop : 63 < top) (h : OuterReady caller arg top (abs m))
    (hs : Stores m cs) (hops : ∀ op ∈ ops, op.Ok)
    (ht : ∀ op ∈ ops, ∀ t ∈ texts op, 63 + 1 + byteLen t ≤ top) :
    (Machine.Cache.runOps caller arg ops m).1 = (steps 63 ops cs).1.map Answer.toRes ∧
    Stores (Machine.Cache.runOps caller arg ops m).2 (steps 63 ops cs).2 ∧
    OuterReady caller arg top (abs (Machine.Cache.runOps caller arg ops m).2) ∧
    (∀ l, top ≤ l → (Machine.Cache.runOps caller arg ops m).2.bytes l = m.bytes l) := by
  rw [outerReady_iff, stores_iff]
  exact machine_cacheOps (outerReady_iff.1 h) htop (stores_iff.1 hs) ops hops ht

/-- C67: after a call that takes a text, whether it returns or fails, the text is in memory as the caller
gave it. -/
theorem C67_text (caller arg : Tag) (top : Nat) (cs w : List Char) (op : Op) (htop : 63 < top)
    (hop : op.Ok) (hw : oneText op = some w) (ht : 63 + 1 + byteLen w ≤ top) :
    (∀ m : Mem Stacked.rules 63, StackedReady caller arg top (abs m) → Stores m cs →
      Given (Machine.Cache.exec caller arg op m).2 w) ∧
    (∀ m : Mem Tree.rules 63, TreeReady caller arg top (abs m) → Stores m cs →
      Given (Machine.Cache.exec caller arg op m).2 w) ∧
    ∀ m : Mem Tree.rulesOuter 63, OuterReady caller arg top (abs m) → Stores m cs →
      Given (Machine.Cache.exec caller arg op m).2 w := by
  have hts : ∀ t ∈ texts op, 63 + 1 + byteLen t ≤ top := by
    have : texts op = [w] := by
      cases op <;> simp_all [oneText, texts]
    simpa [this] using ht
  exact ⟨fun m h hs => (machine_cacheOp (stackedReady_iff.1 h) htop (stores_iff.1 hs) op hop hts).2.2.2.2 w hw,
    fun m h hs => (machine_cacheOp (treeReady_iff.1 h) htop (stores_iff.1 hs) op hop hts).2.2.2.2 w hw,
    fun m h hs => (machine_cacheOp (outerReady_iff.1 h) htop (stores_iff.1 hs) op hop hts).2.2.2.2 w hw⟩

/-- C67: a program that owns memory with any bytes in it that store a text, lends it once as a `CacheString`
and makes any history of calls has no undefined behaviour under either set of rules, gets the answers of a
bounded string of 63 bytes and is left with its text; the bytes beyond the string and the texts of the calls
are the ones it began with. -/
theorem C67_program (bytes : Nat → UInt8) (cs : List Char) (ops : List Op)
    (hfit : byteLen cs ≤ 63) (hsize : (bytes 63).toNat = byteLen cs)
    (htext : ∀ i, i < byteLen cs → (utf8 cs)[i]? = some (bytes i)) (hops : ∀ op ∈ ops, op.Ok) :
    let m1 : Mem Stacked.rules 63 := stackedMem bytes
    let m2 : Mem Tree.rules 63 := treeMem bytes
    (Machine.Cache.runOps 1 3 ops m1).1 = (steps 63 ops cs).1.map Answer.toRes ∧
    (Machine.Cache.runOps 1 3 ops m2).1 = (steps 63 ops cs).1.map Answer.toRes ∧
    Stores (Machine.Cache.runOps 1 3 ops m1).2 (steps 63 ops cs).2 ∧
    Stores (Machine.Cache.runOps 1 3 ops m2).2 (steps 63 ops cs).2 ∧
    Res.ub ∉ (Machine.Cache.runOps 1 3 ops m1).1 ∧ Res.ub ∉ (Machine.Cache.runOps 1 3 ops m2).1 ∧
    ∀ l, 63 < l → (∀ op ∈ ops, ∀ t ∈ texts op, 63 + 1 + byteLen t ≤ l) →
      (Machine.Cache.runOps 1 3 ops m1).2.bytes l = bytes l ∧ (Machine.Cache.runOps 1 3 ops m2).2.bytes l = bytes l := by
  intro m1 m2
  obtain ⟨top, h1, h2⟩ := exists_room 63 (ops.flatMap texts)
  have h2 : ∀ op ∈ ops, ∀ t ∈ texts op, 63 + 1 + byteLen t ≤ top :=
    fun op ho t ht => h2 t (List.mem_flatMap.2 ⟨op, ho, ht⟩)
  obtain ⟨e1, s1, -⟩ := C67_stacked 1 3 top m1 cs ops h1 (stackedMem_ready bytes top) ⟨hfit, hsize, htext⟩ hops h2
  obtain ⟨e2, s2, -⟩ := C67_tree 1 3 top m2 cs ops h1 (treeMem_ready bytes top) ⟨hfit, hsize, htext⟩ hops h2
  have hub : Res.ub ∉ (steps 63 ops cs).1.map Answer.toRes := by
    intro h
    obtain ⟨a, _, ha⟩ := List.mem_map.1 h
    exact (toRes_ne a).1 ha
  refine ⟨e1, e2, s1, s2, by rw [e1]; exact hub, by rw [e2]; exact hub, fun l hl ht => ⟨?_, ?_⟩⟩
  · exact (C67_stacked 1 3 l m1 cs ops hl (stackedMem_ready bytes l) ⟨hfit, hsize, htext⟩ hops ht).2.2.2 l (Nat.le_refl l)
  · exact (C67_tree 1 3 l m2 cs ops hl (treeMem_ready bytes l) ⟨hfit, hsize, htext⟩ hops ht).2.2.2 l (Nat.le_refl l)

/-- Memory of a `CacheString` that stores "hé€", `0xFF` elsewhere. -/
def cacheBytes (l : Nat) : UInt8 :=
  if l = 63 then 6 else ([0x68, 0xC3, 0xA9, 0xE2, 0x82, 0xAC][l]?).getD 0xFF

/-- The hypotheses of the theorems hold of it, with the calls of C57. -/
example : Stores (stackedMem cacheBytes : Mem Stacked.rules 63) ['h', 'é', '€'] ∧
    Stores (treeMem cacheBytes : Mem Tree.rules 63) ['h', 'é', '€'] ∧
    StackedReady 1 3 80 (abs (stackedMem cacheBytes : Mem Stacked.rules 63)) ∧
    TreeReady 1 3 80 (abs (treeMem cacheBytes : Mem Tree.rules 63)) ∧
    OuterReady 1 3 80 (abs (⟨cacheBytes, (treeMem cacheBytes : Mem Tree.rules 63).mem, 4⟩ : Mem Tree.rulesOuter 63)) ∧
    (∀ op ∈ sampleOps, ∀ t ∈ texts op, 63 + 1 + byteLen t ≤ 80) ∧
    oneText (.tryPushStr ['€', 'é', 'a']) = some ['€', 'é', 'a'] ∧
    steps 63 [.tryPush 'é', .remove 1, .pop, .tryPush '!'] ['h', 'é', '€'] =
      ([.returned .unit, .returned (.char 'é'), .returned (.optChar (some 'é')), .returned .unit],
        ['h', '€', '!']) :=
  ⟨⟨by decide, by decide, by decide⟩, ⟨by decide, by decide, by decide⟩, stackedMem_ready _ _, treeMem_ready _ _,
    treeMem_ready (N := 63) cacheBytes 80, by decide, by decide, by decide⟩

/-! ## Tests -/

/-- After the owner has written to the string, the reference may not be used: no method can be called. -/
example : ∀ op ∈ [Op.pop, .clear, .len, .asStr, .tryPushStr ['a'], .truncate 1, .drain .full [], .splitOff 0,
      .new, .add [], .hash, .index .full, .trim, .extendChars [], .writeFmt []],
    ((do
      Machine.store 0 0 [0x41]
      Machine.Cache.exec 1 3 op : M (Mem Stacked.rules 63) Failure Out) (stackedMem cacheBytes)).1 = .ub ∧
    ((do
      Machine.store 0 0 [0x41]
      Machine.Cache.exec 1 3 op : M (Mem Tree.rules 63) Failure Out) (treeMem cacheBytes)).1 = .ub := by decide

end Verif
