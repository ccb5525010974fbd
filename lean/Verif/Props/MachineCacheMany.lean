import Verif.Proofs.MachineCacheMany
import Verif.Props.MachineMany
import Verif.Props.MachineCache

/-!
# Several `CacheString`s in the same memory

C69.  C68 for `CacheString`: also with the references that its own traits make before they call those of the field.
-/

namespace Verif.Machine.Cache
open Spec
open Borrow (Rules Tag World Laws Ready Settled texts)

section
variable {R : Rules} {L : Laws R} {caller arg : Tag} {top : Nat} {m : Mem R 63} {cs : List Char}
  {others : Nat → List Char}

/-- A call that takes no text touches no byte but those of the string. -/
theorem cache_op_own (h : Ready L caller arg top (abs m)) (htop : 63 < top) (hs : Holds m.str cs)
    (op : Op) (hop : op.Ok) (ht : texts op = []) :
    (exec caller arg op m).1 = (step 63 op cs).1.toRes ∧ Holds (exec caller arg op m).2.str (step 63 op cs).2 ∧
      Ready L caller arg top (abs (exec caller arg op m).2) ∧
      ∀ l, 63 < l → (exec caller arg op m).2.bytes l = m.bytes l := by
  obtain ⟨e1, e2, e3, -⟩ := machine_cacheOp h htop hs op hop (by simp [ht])
  refine ⟨e1, e2, e3, fun l hl => ?_⟩
  obtain ⟨w', k1, -⟩ := borrow_cacheOp h htop (show Borrow.Shape (abs m).str from ⟨hs.1, hs.2.1⟩) op (by simp [ht])
  rw [C37_call] at k1
  have hr : Settled (Verif.exec op m.str).1 := by
    rw [(exec_step op hop m.str cs hs).1]
    exact toRes_ne _
  obtain ⟨m', j1, -, -, j4⟩ := sim_cacheExec (caller := caller) (arg := arg) (op := op) (K := 0)
    (show Valid 63 m.bytes from ⟨cs, hs⟩) (by simp [ht]) m rfl _ _ k1 hr
  rw [j1]
  exact j4 l hl

theorem cache_deed (h : Ready L caller arg top (abs m)) (htop : 63 < top) (hs : Holds m.str cs)
    (s : Deed) (hc : CallOk s) (hp : ∀ p ∈ s.places, Placed top m others p) :
    (deed caller arg s m).1 = (s.step 63 others cs).1 ∧ Holds (deed caller arg s m).2.str (s.step 63 others cs).2 ∧
      Ready L caller arg top (abs (deed caller arg s m).2) ∧
      (∀ l, 63 < l → (deed caller arg s m).2.bytes l = m.bytes l) ∧
      (s.looks = true → (deed caller arg s m).2.bytes = m.bytes) := by
  have at1 : ∀ {p}, p ∈ s.places →
      Machine.At.Stored 63 m.bytes (address p) (p.text cs others) ∧
      Borrow.Usable (start 63 caller arg) (fun _ => []) (refTo caller arg p) (address p) (address p + 63 + 1) ∧
      address p + 63 + 1 ≤ top :=
    fun h => ⟨(hp _ h).stored hs, usable_place (hp _ h).ok htop⟩
  cases s with
  | call op =>
    obtain ⟨h1, h2, h3, h4⟩ := cache_op_own h htop hs op hc.1 hc.2
    obtain ⟨x, hx⟩ : ∃ x, exec caller arg op m = x := ⟨_, rfl⟩
    obtain ⟨r, m'⟩ := x
    rw [hx] at h1 h2 h3 h4
    dsimp only at h1 h2 h3 h4
    have e : deed caller arg (.call op) m = (r >>= fun o => .ok (.out o), m') := by
      show M.bind _ _ m = _
      unfold M.bind
      rw [hx]
      cases r <;> rfl
    rw [e]
    subst h1
    refine ⟨?_, h2, h3, h4, nofun⟩
    simp only [Deed.step]
    cases (step 63 op cs).1 <;> rfl
  | eq p q =>
    obtain ⟨a1, a2, a3⟩ := at1 (p := p) (by simp [Deed.places])
    obtain ⟨b1, b2, b3⟩ := at1 (p := q) (by simp [Deed.places])
    exact told htop h hs (At.reads_eq a1 b1 a2 a3 b2 b3) rfl
  | ne p q =>
    obtain ⟨a1, a2, a3⟩ := at1 (p := p) (by simp [Deed.places])
    obtain ⟨b1, b2, b3⟩ := at1 (p := q) (by simp [Deed.places])
    exact told htop h hs (At.reads_ne a1 b1 a2 a3 b2 b3) rfl
  | cmp p q =>
    obtain ⟨a1, a2, a3⟩ := at1 (p := p) (by simp [Deed.places])
    obtain ⟨b1, b2, b3⟩ := at1 (p := q) (by simp [Deed.places])
    exact told htop h hs (At.reads_cmp a1 b1 a2 a3 b2 b3) rfl
  | partialCmp p q =>
    obtain ⟨a1, a2, a3⟩ := at1 (p := p) (by simp [Deed.places])
    obtain ⟨b1, b2, b3⟩ := at1 (p := q) (by simp [Deed.places])
    exact told htop h hs (At.reads_partialCmp a1 b1 a2 a3 b2 b3) rfl
  | lt p q =>
    obtain ⟨a1, a2, a3⟩ := at1 (p := p) (by simp [Deed.places])
    obtain ⟨b1, b2, b3⟩ := at1 (p := q) (by simp [Deed.places])
    refine told htop h hs (At.reads_compared a1 b1 a2 a3 b2 b3) ?_
    cases Spec.cmpText (p.text cs others) (q.text cs others) <;> rfl
  | le p q =>
    obtain ⟨a1, a2, a3⟩ := at1 (p := p) (by simp [Deed.places])
    obtain ⟨b1, b2, b3⟩ := at1 (p := q) (by simp [Deed.places])
    refine told htop h hs (At.reads_compared a1 b1 a2 a3 b2 b3) ?_
    cases Spec.cmpText (p.text cs others) (q.text cs others) <;> rfl
  | gt p q =>
    obtain ⟨a1, a2, a3⟩ := at1 (p := p) (by simp [Deed.places])
    obtain ⟨b1, b2, b3⟩ := at1 (p := q) (by simp [Deed.places])
    refine told htop h hs (At.reads_compared a1 b1 a2 a3 b2 b3) ?_
    cases Spec.cmpText (p.text cs others) (q.text cs others) <;> rfl
  | ge p q =>
    obtain ⟨a1, a2, a3⟩ := at1 (p := p) (by simp [Deed.places])
    obtain ⟨b1, b2, b3⟩ := at1 (p := q) (by simp [Deed.places])
    refine told htop h hs (At.reads_compared a1 b1 a2 a3 b2 b3) ?_
    cases Spec.cmpText (p.text cs others) (q.text cs others) <;> rfl
  | clone p =>
    obtain ⟨a1, a2, a3⟩ := at1 (p := p) (by simp [Deed.places])
    refine told htop h hs (Machine.At.reads_clone a2 a3) ?_
    rw [a1.holds.asStr]
    rfl
  | assign p =>
    obtain ⟨a1, a2, a3⟩ := at1 (p := p) (by simp [Deed.places])
    obtain ⟨y, m', e1, e2, e3, rfl⟩ := ready_run htop h (Machine.At.reads_copy (ε := Failure) a2 a3)
    obtain ⟨m'', k1, k2, k3, k4⟩ := ready_store (ε := Failure) e3 _ a1.holds.1
    simp only [deed, Deed.step]
    rw [Borrow.bind_ok e1, Borrow.bind_ok k1]
    refine ⟨rfl, ?_, k3, fun l hl => (k4 l hl).trans (by rw [e2]), nofun⟩
    show Holds m''.str _
    rw [k2]
    exact a1.holds
  | debug p =>
    obtain ⟨a1, a2, a3⟩ := at1 (p := p) (by simp [Deed.places])
    obtain ⟨y, m', e1, e2, e3, e4, e5⟩ := ready_run htop h (At.reads_debug (ε := Failure) a1 a2 a3)
    simp only [deed, Deed.step]
    rw [Borrow.bind_ok e1, ← e4, ← e5]
    refine ⟨rfl, ?_, e3, fun l _ => by rw [← e2]; rfl, fun _ => e2⟩
    show Holds (strOf 63 m'.bytes) cs
    rw [e2]
    exact hs
  | serialize p =>
    obtain ⟨a1, a2, a3⟩ := at1 (p := p) (by simp [Deed.places])
    exact told htop h hs (At.reads_serialize a1 a2 a3) rfl
  | toSql p =>
    obtain ⟨a1, a2, a3⟩ := at1 (p := p) (by simp [Deed.places])
    exact told htop h hs (At.reads_toSql a1 a2 a3) rfl

theorem cache_deeds (h : Ready L caller arg top (abs m)) (htop : 63 < top) (hs : Holds m.str cs)
    (ss : List Deed) (hc : ∀ s ∈ ss, CallOk s) (hp : ∀ s ∈ ss, ∀ p ∈ s.places, Placed top m others p) :
    (deeds caller arg ss m).1 = (Deed.steps 63 others ss cs).1 ∧
      Holds (deeds caller arg ss m).2.str (Deed.steps 63 others ss cs).2 ∧
      Ready L caller arg top (abs (deeds caller arg ss m).2) ∧
      ∀ l, 63 < l → (deeds caller arg ss m).2.bytes l = m.bytes l := by
  induction ss generalizing m cs with
  | nil => exact ⟨rfl, hs, h, fun _ _ => rfl⟩
  | cons s ss ih =>
    obtain ⟨e1, h1, g1, f1, -⟩ := cache_deed h htop hs s (hc s List.mem_cons_self) (hp s List.mem_cons_self)
    obtain ⟨i1, i2, i3, i4⟩ := ih g1 h1 (fun s h => hc s (List.mem_cons_of_mem _ h))
      (fun s h p hp' => (hp s (List.mem_cons_of_mem _ h) p hp').congr f1)
    simp only [deeds, Deed.steps]
    exact ⟨by rw [i1, e1], i2, i3, fun l hl => (i4 l hl).trans (f1 l hl)⟩

end

end Verif.Machine.Cache

namespace Verif
open Spec Borrow
open Machine (Mem Stores abs strOf stores_iff Placed CallOk store)
open Machine.Cache (deed deeds cache_deed cache_deeds)
open Machine.At (Stored)

/-- C69, Stacked Borrows: with an own `CacheString` that stores the text `cs` and others with the texts `others`
behind a shared reference, any sequence of statements, each computing with the bytes that it loads, tells what
the texts tell, and leaves the own string with the text that they say; it has no undefined behaviour, leaves the
references usable, and changes no byte outside the own string. -/
theorem C69_stacked (caller arg : Tag) (top : Nat) (m : Mem Stacked.rules 63)
    (cs : List Char) (others : Nat → List Char) (ss : List Deed) (htop : 63 < top)
    (h : StackedReady caller arg top (abs m)) (hs : Stores m cs) (hc : ∀ s ∈ ss, CallOk s)
    (hp : ∀ s ∈ ss, ∀ p ∈ s.places, Placed top m others p) :
    (deeds caller arg ss m).1 = (Deed.steps 63 others ss cs).1 ∧
    Stores (deeds caller arg ss m).2 (Deed.steps 63 others ss cs).2 ∧
    StackedReady caller arg top (abs (deeds caller arg ss m).2) ∧
    ∀ l, 63 < l → (deeds caller arg ss m).2.bytes l = m.bytes l := by
  rw [stackedReady_iff, stores_iff]
  exact cache_deeds (stackedReady_iff.1 h) htop (stores_iff.1 hs) ss hc hp

/-- C69, Tree Borrows. -/
theorem C69_tree (caller arg : Tag) (top : Nat) (m : Mem Tree.rules 63)
    (cs : List Char) (others : Nat → List Char) (ss : List Deed) (htop : 63 < top)
    (h : TreeReady caller arg top (abs m)) (hs : Stores m cs) (hc : ∀ s ∈ ss, CallOk s)
    (hp : ∀ s ∈ ss, ∀ p ∈ s.places, Placed top m others p) :
    (deeds caller arg ss m).1 = (Deed.steps 63 others ss cs).1 ∧
    Stores (deeds caller arg ss m).2 (Deed.steps 63 others ss cs).2 ∧
    TreeReady caller arg top (abs (deeds caller arg ss m).2) ∧
    ∀ l, 63 < l → (deeds caller arg ss m).2.bytes l = m.bytes l := by
  rw [treeReady_iff, stores_iff]
  exact cache_deeds (treeReady_iff.1 h) htop (stores_iff.1 hs) ss hc hp

/-- C69, Tree Borrows as in Miri (C62). -/
theorem C69_outer (caller arg : Tag) (top : Nat) (m : Mem Tree.rulesOuter 63)
    (cs : List Char) (others : Nat → List Char) (ss : List Deed) (htop : 63 < top)
    (h : OuterReady caller arg top (abs m)) (hs : Stores m cs) (hc : ∀ s ∈ ss, CallOk s)
    (hp : ∀ s ∈ ss, ∀ p ∈ s.places, Placed top m others p) :
    (deeds caller arg ss m).1 = (Deed.steps 63 others ss cs).1 ∧
    Stores (deeds caller arg ss m).2 (Deed.steps 63 others ss cs).2 ∧
    OuterReady caller arg top (abs (deeds caller arg ss m).2) ∧
    ∀ l, 63 < l → (deeds caller arg ss m).2.bytes l = m.bytes l := by
  rw [outerReady_iff, stores_iff]
  exact cache_deeds (outerReady_iff.1 h) htop (stores_iff.1 hs) ss hc hp

/-- C69: a statement that only looks changes no byte at all, under either set of rules. -/
theorem C69_looks (caller arg : Tag) (top : Nat) (cs : List Char) (others : Nat → List Char)
    (s : Deed) (htop : 63 < top) (hl : s.looks = true) :
    (∀ m : Mem Stacked.rules 63, StackedReady caller arg top (abs m) → Stores m cs →
      (∀ p ∈ s.places, Placed top m others p) → (deed caller arg s m).2.bytes = m.bytes) ∧
    (∀ m : Mem Tree.rules 63, TreeReady caller arg top (abs m) → Stores m cs →
      (∀ p ∈ s.places, Placed top m others p) → (deed caller arg s m).2.bytes = m.bytes) ∧
    ∀ m : Mem Tree.rulesOuter 63, OuterReady caller arg top (abs m) → Stores m cs →
      (∀ p ∈ s.places, Placed top m others p) → (deed caller arg s m).2.bytes = m.bytes := by
  have hc : CallOk s := by
    cases s <;> first | trivial | cases hl
  exact ⟨fun m h hs hp => (cache_deed (stackedReady_iff.1 h) htop (stores_iff.1 hs) s hc hp).2.2.2.2 hl,
    fun m h hs hp => (cache_deed (treeReady_iff.1 h) htop (stores_iff.1 hs) s hc hp).2.2.2.2 hl,
    fun m h hs hp => (cache_deed (outerReady_iff.1 h) htop (stores_iff.1 hs) s hc hp).2.2.2.2 hl⟩

/-- Memory of three `CacheString`s: "hé€" at 0, "hé" at 64, "hé€" again at 128, with other bytes after it, `0xFF`
elsewhere. -/
def cacheManyBytes (l : Nat) : UInt8 :=
  if l = 63 then 6 else if l = 127 then 3 else if l = 191 then 6
  else if l < 64 then ([0x68, 0xC3, 0xA9, 0xE2, 0x82, 0xAC][l]?).getD 0xFF
  else if l < 128 then ([0x68, 0xC3, 0xA9][l - 64]?).getD 0xFF
  else ([0x68, 0xC3, 0xA9, 0xE2, 0x82, 0xAC, 0x41, 0x42][l - 128]?).getD 0xFF

def cacheManyOthers (o : Nat) : List Char := if o = 64 then ['h', 'é'] else ['h', 'é', '€']

/-- Comparing the own string with itself and with others, taking over another one, changing it, and looking
again. -/
def cacheManyDeeds : List Deed :=
  [.eq .own (.at 128), .eq .own (.at 64), .ne (.at 64) (.at 128), .cmp .own .own, .cmp .own (.at 64), .lt (.at 64) .own,
    .partialCmp (.at 64) (.at 128), .clone (.at 128), .assign (.at 64), .call (.tryPush 'z'), .cmp .own (.at 128),
    .ge .own (.at 64), .call .pop, .call .pop, .call .pop, .call .pop, .le .own (.at 64), .gt .own (.at 64),
    .debug (.at 64), .serialize (.at 128), .toSql .own, .assign .own]

/-- The hypotheses of C69 hold of it. -/
example : Stores (stackedMem cacheManyBytes : Mem Stacked.rules 63) ['h', 'é', '€'] ∧
    Stores (treeMem cacheManyBytes : Mem Tree.rules 63) ['h', 'é', '€'] ∧
    StackedReady 1 3 192 (abs (stackedMem cacheManyBytes : Mem Stacked.rules 63)) ∧
    TreeReady 1 3 192 (abs (treeMem cacheManyBytes : Mem Tree.rules 63)) ∧
    OuterReady 1 3 192 (abs (⟨cacheManyBytes, (treeMem cacheManyBytes : Mem Tree.rules 63).mem, 4⟩ : Mem Tree.rulesOuter 63)) ∧
    (∀ s ∈ cacheManyDeeds, CallOk s) ∧
    (∀ s ∈ cacheManyDeeds, ∀ p ∈ s.places,
      Placed 192 (stackedMem cacheManyBytes : Mem Stacked.rules 63) cacheManyOthers p) := by
  have h1 : Stored 63 cacheManyBytes 64 (cacheManyOthers 64) := ⟨by decide, by decide, by decide⟩
  have h2 : Stored 63 cacheManyBytes 128 (cacheManyOthers 128) := ⟨by decide, by decide, by decide⟩
  refine ⟨⟨by decide, by decide, by decide⟩, ⟨by decide, by decide, by decide⟩, stackedMem_ready _ _, treeMem_ready _ _,
    treeMem_ready (N := 63) cacheManyBytes 192, ?_, ?_⟩
  · simp [cacheManyDeeds, CallOk, Op.Ok, texts]
  · simp [cacheManyDeeds, Deed.places, Placed, stackedMem, h1, h2]

/-- What they tell. -/
example : Deed.steps 63 cacheManyOthers cacheManyDeeds ['h', 'é', '€'] =
    ([.ok (.out (.bool true)), .ok (.out (.bool false)), .ok (.out (.bool true)), .ok (.out (.ordering .eq)),
      .ok (.out (.ordering .gt)), .ok (.out (.bool true)), .ok (.partialOrdering (some .lt)),
      .ok (.out (.str [0x68, 0xC3, 0xA9, 0xE2, 0x82, 0xAC])), .ok (.out .unit), .ok (.out .unit),
      .ok (.out (.ordering .lt)), .ok (.out (.bool true)), .ok (.out (.optChar (some 'z'))),
      .ok (.out (.optChar (some 'é'))), .ok (.out (.optChar (some 'h'))), .ok (.out (.optChar none)),
      .ok (.out (.bool true)), .ok (.out (.bool false)), .ok (.fields [0x68, 0xC3, 0xA9] 3),
      .ok (.out (.str [0x68, 0xC3, 0xA9, 0xE2, 0x82, 0xAC])), .ok (.out (.str [])), .ok (.out .unit)], []) := by
  decide

/-! ## Tests -/

/-- After their owner has written to the other strings, the reference to them may not be used. -/
example : ∀ s ∈ [Deed.eq .own (.at 64), .cmp (.at 64) .own, .clone (.at 64), .assign (.at 64), .debug (.at 64),
      .serialize (.at 64), .toSql (.at 64)],
    ((do
      store 2 64 [0x41]
      deed 1 3 s : M (Mem Stacked.rules 63) Failure Told) (stackedMem cacheManyBytes)).1 = .ub ∧
    ((do
      store 2 64 [0x41]
      deed 1 3 s : M (Mem Tree.rules 63) Failure Told) (treeMem cacheManyBytes)).1 = .ub := by
  decide +kernel

end Verif
