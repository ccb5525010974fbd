import Verif.Proofs.MachineOps
import Verif.Props.BorrowOuter

/-!
# The calls on nothing but bytes

C66.  Each of the calls of C03 as a sequence of tagged loads and stores on a memory of bytes: the answers,
computed from what was loaded, are those of C03, the bytes stored are the UTF-8 of the text of C03, and no
load or store breaks Stacked Borrows or Tree Borrows.
-/

namespace Verif.Machine
open Spec
open Borrow (Rules Tag World Laws Ready Settled texts)

variable {N : Nat}

/-- The bytes at `0 ..= N` store the text `cs`: the first ones are its UTF-8, the last one is its length. -/
structure Stores {R : Rules} (m : Mem R N) (cs : List Char) : Prop where
  fits : byteLen cs ≤ N
  size : (m.bytes N).toNat = byteLen cs
  text : ∀ i, i < byteLen cs → (utf8 cs)[i]? = some (m.bytes i)

theorem stores_iff {R : Rules} {m : Mem R N} {cs : List Char} : Stores m cs ↔ Holds m.str cs := by
  have hb : byteLen cs = (utf8 cs).length := (length_utf8 cs).symm
  have hl : (strOf N m.bytes).array.length = N := by simp [strOf]
  have hg : ∀ i, i < N → (strOf N m.bytes).array[i]? = some (m.bytes i) := fun i hi => by
    simp [strOf, hi]
  show _ ↔ Holds (strOf N m.bytes) cs
  constructor
  · rintro ⟨h1, h2, h3⟩
    refine ⟨hl, show (m.bytes N).toNat ≤ N by omega, ?_⟩
    refine List.ext_getElem? fun i => ?_
    show (List.take (m.bytes N).toNat _)[i]? = _
    by_cases hi : i < byteLen cs
    · rw [List.getElem?_take_of_lt (by omega), hg i (by omega), h3 i hi]
    · rw [List.getElem?_eq_none (by simp only [List.length_take]; omega), List.getElem?_eq_none (by omega)]
  · rintro ⟨_, h2, h3⟩
    have h2 : (m.bytes N).toNat ≤ N := h2
    have h3 : (strOf N m.bytes).array.take (m.bytes N).toNat = utf8 cs := h3
    have h4 : (m.bytes N).toNat = byteLen cs := by
      rw [hb, ← h3, List.length_take, hl]
      omega
    refine ⟨by omega, h4, fun i hi => ?_⟩
    rw [← h3, List.getElem?_take_of_lt (by omega), hg i (by omega)]

section
variable {R : Rules} {L : Laws R} {caller arg : Tag} {top : Nat} {m : Mem R N} {cs : List Char}

/-- Of the bytes from `N + 1` on, the first ones are the UTF-8 of `w`. -/
def Given {R : Rules} (m : Mem R N) (w : List Char) : Prop :=
  ∀ i, i < byteLen w → (utf8 w)[i]? = some (m.bytes (N + 1 + i))

theorem machine_op [ValidCapacity N] (h : Ready L caller arg top (abs m)) (htop : N < top) (hs : Holds m.str cs)
    (op : Op) (hop : op.Ok) (ht : ∀ t ∈ texts op, N + 1 + byteLen t ≤ top) :
    (exec caller arg op m).1 = (step N op cs).1.toRes ∧ Holds (exec caller arg op m).2.str (step N op cs).2 ∧
      Ready L caller arg top (abs (exec caller arg op m).2) ∧
      (∀ l, top ≤ l → (exec caller arg op m).2.bytes l = m.bytes l) ∧
      ∀ w, oneText op = some w → Given (exec caller arg op m).2 w := by
  obtain ⟨w', e1, s1, g1⟩ := borrow_op h htop (show Borrow.Shape (abs m).str from ⟨hs.1, hs.2.1⟩) op ht
  obtain ⟨h1, h2⟩ := exec_step op hop m.str cs hs
  have hr : Settled (Verif.exec op m.str).1 := by
    rw [h1]
    exact toRes_ne _
  obtain ⟨m', k1, k2, k3, k4⟩ := sim_exec (caller := caller) (arg := arg) (op := op) (K := top - N - 1)
    (show Valid N m.bytes from ⟨cs, hs⟩) (fun t h => by have := ht t h; omega) m rfl _ _ e1 hr
  rw [k1]
  dsimp only
  refine ⟨h1, ?_, ?_, fun l hl => k4 l (by omega), fun w hw i hi => ?_⟩
  · have k6 : m'.str = (Verif.exec op m.str).2 := (congrArg World.str k2).trans s1
    rwa [k6]
  · rw [k2]
    exact (g1 hr).1
  · exact k3 w hw i (by rwa [length_utf8])

theorem machine_ops [ValidCapacity N] (h : Ready L caller arg top (abs m)) (htop : N < top) (hs : Holds m.str cs)
    (ops : List Op) (hops : ∀ op ∈ ops, op.Ok) (ht : ∀ op ∈ ops, ∀ t ∈ texts op, N + 1 + byteLen t ≤ top) :
    (runOps caller arg ops m).1 = (steps N ops cs).1.map Answer.toRes ∧
    Holds (runOps caller arg ops m).2.str (steps N ops cs).2 ∧
    Ready L caller arg top (abs (runOps caller arg ops m).2) ∧
    (∀ l, top ≤ l → (runOps caller arg ops m).2.bytes l = m.bytes l) := by
  induction ops generalizing m cs with
  | nil => exact ⟨rfl, hs, h, fun _ _ => rfl⟩
  | cons op ops ih =>
    obtain ⟨e1, h1, g1, f1, -⟩ := machine_op h htop hs op (hops op List.mem_cons_self) (ht op List.mem_cons_self)
    obtain ⟨i1, i2, i3, i4⟩ := ih g1 h1 (fun op h => hops op (List.mem_cons_of_mem _ h))
      (fun op h => ht op (List.mem_cons_of_mem _ h))
    simp only [runOps, steps, List.map_cons]
    exact ⟨by rw [i1, e1], i2, i3, fun l hl => (i4 l hl).trans (f1 l hl)⟩

end

end Verif.Machine

namespace Verif
open Spec Borrow
open Machine (Mem Stores Given abs strOf stores_iff machine_op machine_ops oneText store promised)

variable {N : Nat}

/-- C66, Stacked Borrows: from memory that stores a text, any history of calls, each computing with the bytes
that it loads, gives the answers of C03, stores the text of C03, has no undefined behaviour, and leaves the
references of the caller usable; also when calls fail or panic.  Beyond the string and the texts of the
calls no byte has changed. -/
theorem C66_stacked [ValidCapacity N] (caller arg : Tag) (top : Nat) (m : Mem Stacked.rules N)
    (cs : List Char) (ops : List Op) (htop : N < top) (h : StackedReady caller arg top (abs m))
    (hs : Stores m cs) (hops : ∀ op ∈ ops, op.Ok)
    (ht : ∀ op ∈ ops, ∀ t ∈ texts op, N + 1 + byteLen t ≤ top) :
    (Machine.runOps caller arg ops m).1 = (steps N ops cs).1.map Answer.toRes ∧
    Stores (Machine.runOps caller arg ops m).2 (steps N ops cs).2 ∧
    StackedReady caller arg top (abs (Machine.runOps caller arg ops m).2)  ∧
    (∀ l, top ≤ l → (Machine.runOps caller arg ops m).2.bytes l = m.bytes l) := by
  rw [stackedReady_iff, stores_iff]
  exact machine_ops (stackedReady_iff.1 h) htop (stores_iff.1 hs) ops hops ht

/-- C66, Tree Borrows. -/
theorem C66_tree [ValidCapacity N] (caller arg : Tag) (top : Nat) (m : Mem Tree.rules N)
    (cs : List Char) (ops : List Op) (htop : N < top) (h : TreeReady caller arg top (abs m))
    (hs : Stores m cs) (hops : ∀ op ∈ ops, op.Ok)
    (ht : ∀ op ∈ ops, ∀ t ∈ texts op, N + 1 + byteLen t ≤ top) :
    (Machine.runOps caller arg ops m).1 = (steps N ops cs).1.map Answer.toRes ∧
    Stores (Machine.runOps caller arg ops m).2 (steps N ops cs).2 ∧
    TreeReady caller arg top (abs (Machine.runOps caller arg ops m).2)  ∧
    (∀ l, top ≤ l → (Machine.runOps caller arg ops m).2.bytes l = m.bytes l) := by
  rw [treeReady_iff, stores_iff]
  exact machine_ops (treeReady_iff.1 h) htop (stores_iff.1 hs) ops hops ht

/-- C66, Tree Borrows as in Miri (C62). -/
theorem C66_outer [ValidCapacity N] (caller arg : Tag) (top : Nat) (m : Mem Tree.rulesOuter N)
    (cs : List Char) (ops : List Op) (htop : N < top) (h : OuterReady caller arg top (abs m))
    (hs : Stores m cs) (hops : ∀ op ∈ ops, op.Ok)
    (ht : ∀ op ∈ ops, ∀ t ∈ texts op, N + 1 + byteLen t ≤ top) :
    (Machine.runOps caller arg ops m).1 = (steps N ops cs).1.map Answer.toRes ∧
    Stores (Machine.runOps caller arg ops m).2 (steps N ops cs).2 ∧
    OuterReady caller arg top (abs (Machine.runOps caller arg ops m).2)  ∧
    (∀ l, top ≤ l → (Machine.runOps caller arg ops m).2.bytes l = m.bytes l) := by
  rw [outerReady_iff, stores_iff]
  exact machine_ops (outerReady_iff.1 h) htop (stores_iff.1 hs) ops hops ht

/-- C66: after a call that takes a text, whether it returns or fails, the text is in memory as the
caller gave it. -/
theorem C66_text [ValidCapacity N] (caller arg : Tag) (top : Nat) (cs w : List Char) (op : Op) (htop : N < top)
    (hop : op.Ok) (hw : oneText op = some w) (ht : N + 1 + byteLen w ≤ top) :
    (∀ m : Mem Stacked.rules N, StackedReady caller arg top (abs m) → Stores m cs →
      Given (Machine.exec caller arg op m).2 w) ∧
    (∀ m : Mem Tree.rules N, TreeReady caller arg top (abs m) → Stores m cs →
      Given (Machine.exec caller arg op m).2 w) ∧
    ∀ m : Mem Tree.rulesOuter N, OuterReady caller arg top (abs m) → Stores m cs →
      Given (Machine.exec caller arg op m).2 w := by
  have hts : ∀ t ∈ texts op, N + 1 + byteLen t ≤ top := by
    have : texts op = [w] := by
      cases op <;> simp_all [oneText, texts]
    simpa [this] using ht
  exact ⟨fun m h hs => (machine_op (stackedReady_iff.1 h) htop (stores_iff.1 hs) op hop hts).2.2.2.2 w hw,
    fun m h hs => (machine_op (treeReady_iff.1 h) htop (stores_iff.1 hs) op hop hts).2.2.2.2 w hw,
    fun m h hs => (machine_op (outerReady_iff.1 h) htop (stores_iff.1 hs) op hop hts).2.2.2.2 w hw⟩

/-- Memory with the given bytes: the owner `0` of the string has lent it to `1`, the owner `2` of the text
has lent it to `3`. -/
def stackedMem (bytes : Nat → UInt8) : Mem Stacked.rules N where
  bytes
  mem l := if l ≤ N then [⟨1, .unique, false⟩, ⟨0, .unique, false⟩]
    else [⟨3, .sharedRO, false⟩, ⟨2, .unique, false⟩]
  next := 4

/-- The same for Tree Borrows. -/
def treeMem (bytes : Nat → UInt8) : Mem Tree.rules N where
  bytes
  mem l := if l ≤ N then [⟨1, 0, .reserved false, false⟩, ⟨0, 0, .active, false⟩]
    else [⟨3, 2, .frozen, false⟩, ⟨2, 2, .active, false⟩]
  next := 4

theorem stackedMem_ready (bytes : Nat → UInt8) (top : Nat) :
    StackedReady 1 3 top (abs (stackedMem bytes : Mem Stacked.rules N)) := stackedStart_ready (strOf N bytes) top

theorem treeMem_ready (bytes : Nat → UInt8) (top : Nat) :
    TreeReady 1 3 top (abs (treeMem bytes : Mem Tree.rules N)) := treeStart_ready (strOf N bytes) top

/-- C66: a program that owns memory with any bytes in it that store a text, lends it once and makes any
history of calls has no undefined behaviour under either set of rules, gets the answers of C03 and is left
with the text of C03; the bytes beyond the string and the texts of the calls are the ones it began with. -/
theorem C66_program [ValidCapacity N] (bytes : Nat → UInt8) (cs : List Char) (ops : List Op)
    (hfit : byteLen cs ≤ N) (hsize : (bytes N).toNat = byteLen cs)
    (htext : ∀ i, i < byteLen cs → (utf8 cs)[i]? = some (bytes i)) (hops : ∀ op ∈ ops, op.Ok) :
    let m1 : Mem Stacked.rules N := stackedMem bytes
    let m2 : Mem Tree.rules N := treeMem bytes
    (Machine.runOps 1 3 ops m1).1 = (steps N ops cs).1.map Answer.toRes ∧
    (Machine.runOps 1 3 ops m2).1 = (steps N ops cs).1.map Answer.toRes ∧
    Stores (Machine.runOps 1 3 ops m1).2 (steps N ops cs).2 ∧ Stores (Machine.runOps 1 3 ops m2).2 (steps N ops cs).2 ∧
    Res.ub ∉ (Machine.runOps 1 3 ops m1).1 ∧ Res.ub ∉ (Machine.runOps 1 3 ops m2).1 ∧
    ∀ l, N < l → (∀ op ∈ ops, ∀ t ∈ texts op, N + 1 + byteLen t ≤ l) →
      (Machine.runOps 1 3 ops m1).2.bytes l = bytes l ∧ (Machine.runOps 1 3 ops m2).2.bytes l = bytes l := by
  intro m1 m2
  obtain ⟨top, h1, h2⟩ := exists_room N (ops.flatMap texts)
  have h2 : ∀ op ∈ ops, ∀ t ∈ texts op, N + 1 + byteLen t ≤ top :=
    fun op ho t ht => h2 t (List.mem_flatMap.2 ⟨op, ho, ht⟩)
  obtain ⟨e1, s1, -⟩ := C66_stacked 1 3 top m1 cs ops h1 (stackedMem_ready bytes top) ⟨hfit, hsize, htext⟩ hops h2
  obtain ⟨e2, s2, -⟩ := C66_tree 1 3 top m2 cs ops h1 (treeMem_ready bytes top) ⟨hfit, hsize, htext⟩ hops h2
  have hub : Res.ub ∉ (steps N ops cs).1.map Answer.toRes := by
    intro h
    obtain ⟨a, _, ha⟩ := List.mem_map.1 h
    exact (toRes_ne a).1 ha
  refine ⟨e1, e2, s1, s2, by rw [e1]; exact hub, by rw [e2]; exact hub, fun l hl ht => ⟨?_, ?_⟩⟩
  · exact (C66_stacked 1 3 l m1 cs ops hl (stackedMem_ready bytes l) ⟨hfit, hsize, htext⟩ hops ht).2.2.2 l (Nat.le_refl l)
  · exact (C66_tree 1 3 l m2 cs ops hl (treeMem_ready bytes l) ⟨hfit, hsize, htext⟩ hops ht).2.2.2 l (Nat.le_refl l)

/-- Memory of capacity 8 that stores "hé€", `0xFF` elsewhere. -/
def sampleBytes (l : Nat) : UInt8 :=
  if l = 8 then 6 else ([0x68, 0xC3, 0xA9, 0xE2, 0x82, 0xAC][l]?).getD 0xFF

/-- The hypotheses of the theorems hold of it, with the calls of C57, which construct, edit, fail, panic
and look. -/
example : Stores (stackedMem sampleBytes : Mem Stacked.rules 8) ['h', 'é', '€'] ∧
    Stores (treeMem sampleBytes : Mem Tree.rules 8) ['h', 'é', '€'] ∧
    StackedReady 1 3 20 (abs (stackedMem sampleBytes : Mem Stacked.rules 8)) ∧
    TreeReady 1 3 20 (abs (treeMem sampleBytes : Mem Tree.rules 8)) ∧
    OuterReady 1 3 20 (abs (⟨sampleBytes, (treeMem sampleBytes : Mem Tree.rules 8).mem, 4⟩ : Mem Tree.rulesOuter 8)) ∧
    (∀ op ∈ sampleOps, ∀ t ∈ texts op, 8 + 1 + byteLen t ≤ 20) ∧
    steps 8 [.tryPush 'é', .remove 1, .pop, .tryPush '!'] ['h', 'é', '€'] =
      ([.returned .unit, .returned (.char 'é'), .returned (.optChar (some 'é')), .returned .unit],
        ['h', '€', '!']) :=
  ⟨⟨by decide, by decide, by decide⟩, ⟨by decide, by decide, by decide⟩, stackedMem_ready _ _, treeMem_ready _ _,
    treeMem_ready (N := 8) sampleBytes 20, by decide, by decide⟩

/-- And of C66_text, with a text that is refused for its length and one for the place it would go to. -/
example : oneText (.tryPushStr ['€', 'é', 'a']) = some ['€', 'é', 'a'] ∧
    oneText (.replaceRange (.range 1 2) ['ß']) = some ['ß'] ∧
    (step 8 (.tryPushStr ['€', 'é', 'a']) ['h', 'é', '€']).1 = .failed .outOfBounds ∧
    (step 8 (.replaceRange (.range 1 2) ['ß']) ['h', 'é', '€']).1 = .failed .utf8 ∧ 8 + 1 + byteLen ['€', 'é', 'a'] ≤ 20 := by
  decide

/-! ## Tests -/

/-- The bytes do decide: the same calls on other bytes. -/
example : (Machine.exec 1 3 .asStr (stackedMem sampleBytes : Mem Stacked.rules 8)).1 =
      .ok (.str [0x68, 0xC3, 0xA9, 0xE2, 0x82, 0xAC]) ∧
    (Machine.exec 1 3 .asStr (stackedMem fun l => if l = 8 then 2 else 0x41 : Mem Stacked.rules 8)).1 =
      .ok (.str [0x41, 0x41]) := by decide

/-- The calls of C57 on these bytes, under both sets of rules: the last one looks at the text. -/
example : (Machine.runOps 1 3 sampleOps (stackedMem sampleBytes : Mem Stacked.rules 8)).1.getLast? =
      some (.ok (.str [0x21, 0xE2, 0x82, 0xAC, 0x61])) ∧
    (Machine.runOps 1 3 sampleOps (treeMem sampleBytes : Mem Tree.rules 8)).1.getLast? =
      some (.ok (.str [0x21, 0xE2, 0x82, 0xAC, 0x61])) := by
  obtain ⟨h1, h2, -⟩ := C66_program (N := 8) sampleBytes ['h', 'é', '€'] sampleOps (by decide) (by decide) (by decide)
    (by have := usizeMax_ge; simp [sampleOps, Op.Ok, RangeOk, BoundOk, RangeB.range]; omega)
  rw [h1, h2]
  decide

/-- After the owner has written to the string, the reference may not be used: no method can be called. -/
example : ∀ op ∈ [Op.pop, .clear, .len, .asStr, .tryPushStr ['a'], .truncate 1, .drain .full [], .splitOff 0,
      .new, .add [], .hash, .index .full, .trim, .extendChars [], .writeFmt []],
    ((do
      store 0 0 [0x41]
      Machine.exec 1 3 op : M (Mem Stacked.rules 8) Failure Out) (stackedMem sampleBytes)).1 = .ub ∧
    ((do
      store 0 0 [0x41]
      Machine.exec 1 3 op : M (Mem Tree.rules 8) Failure Out) (treeMem sampleBytes)).1 = .ub := by decide

/-- `str::get_unchecked` may not be asked to cut "hé€" at 2. -/
example : (promised 0 6 0 2 (stackedMem sampleBytes : Mem Stacked.rules 8) : Res Empty Unit × _).1 = .ub ∧
    (promised 0 6 0 3 (stackedMem sampleBytes : Mem Stacked.rules 8) : Res Empty Unit × _).1 = .ok () := by
  decide

end Verif
