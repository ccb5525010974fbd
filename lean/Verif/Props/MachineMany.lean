import Verif.Proofs.MachineMany
import Verif.Props.Machine

/-!
# Several strings in the same memory

C68.  A program with a string that it may change, and a slice of others that it may look at: comparing, copying,
assigning, printing and serializing, between calls on its own string, all as tagged loads and stores on bytes.
-/

namespace Verif.Machine
open Spec
open Borrow (Rules Tag World Laws Ready Settled texts)

variable {N : Nat}

/-- At the place, if it is not that of the own string, is a string with its text, behind `arg`. -/
def Placed {R : Rules} (top : Nat) (m : Mem R N) (others : Nat → List Char) : Place → Prop
  | .own => True
  | .at o => N + 1 ≤ o ∧ o + N + 1 ≤ top ∧ At.Stored N m.bytes o (others o)

/-- What the caller of a call has to see to, and that it takes no text. -/
def CallOk : Deed → Prop
  | .call op => op.Ok ∧ texts op = []
  | _ => True

section
variable {R : Rules} {L : Laws R} {caller arg : Tag} {top : Nat} {m : Mem R N} {cs : List Char}
  {others : Nat → List Char}

theorem Placed.congr {m' : Mem R N} {p : Place} (h : Placed top m others p) (he : ∀ l, N < l → m'.bytes l = m.bytes l) :
    Placed top m' others p := by
  cases p with
  | own => trivial
  | «at» o =>
    obtain ⟨h1, h2, h3⟩ := h
    exact ⟨h1, h2, h3.fits, by rw [he _ (by omega)]; exact h3.size, fun i hi => by
      rw [he _ (by omega)]; exact h3.text i hi⟩

theorem Placed.ok {p : Place} (h : Placed top m others p) : Place.Ok N top p := by
  cases p with
  | own => trivial
  | «at» o => exact ⟨h.1, h.2.1⟩

theorem Placed.stored {p : Place} (h : Placed top m others p) (hs : Holds m.str cs) :
    At.Stored N m.bytes (address p) (p.text cs others) := by
  cases p with
  | own =>
    obtain ⟨h1, h2, h3⟩ := stores_iff.2 hs
    exact ⟨h1, by simpa [address, Place.text] using h2, fun i hi => by simpa [address, Place.text] using h3 i hi⟩
  | «at» o => exact h.2.2

/-- `*caller = s` -/
theorem ready_store {ε : Type} (h : Ready L caller arg top (abs m)) (s : ArrayString N)
    (hs : s.array.length = N) :
    ∃ m', (storeString caller s : M (Mem R N) ε Unit) m = (.ok (), m') ∧ m'.str = s ∧
      Ready L caller arg top (abs m') ∧ ∀ l, N < l → m'.bytes l = m.bytes l := by
  obtain ⟨mem', h1, h2⟩ := Borrow.touch_run (ε := ε) (w := abs m) (lo := 0) (hi := N + 1) (f := R.write caller)
    (Q := fun l st => (l ≤ N → (R.write caller st).isSome ∧ L.Below m.next st) ∧
      (N < l → l < top → (R.read arg st).isSome ∧ L.Below m.next st))
    (fun l _ hl => by
      obtain ⟨st', g1, g2, g3⟩ := L.root_write (h.1 l (by omega)).1 (h.1 l (by omega)).2
      exact ⟨st', g1, fun _ => ⟨g2, g3⟩, fun _ => by omega⟩)
    (fun l hl => ⟨fun _ => by omega, fun h1 h2 => h.2 l h1 h2⟩)
  have e : (Borrow.writeAt caller 0 (N + 1) >>= fun _ => Borrow.put s : M (World R N) ε Unit) (abs m) =
      (.ok (), ⟨s, mem', m.next⟩) := by
    rw [Borrow.bind_ok (show (Borrow.writeAt caller 0 (N + 1) : M (World R N) ε Unit) (abs m) = _ from h1)]
    rfl
  obtain ⟨r', m', k1, k2, -, k4⟩ := sim_store (K := 0) (b := []) (E := fun _ => True) (g := m.bytes)
    (x := (List.range' 0 (N + 1)).map (bytesOf s)) (v := s)
    (Q := fun _ _ g' => g' = stored m.bytes 0 ((List.range' 0 (N + 1)).map (bytesOf s)))
    (by simp) (by simp) (strOf_whole hs) rfl m rfl .nil _ _ e Borrow.settled_ok
  cases r' with
  | ok _ =>
    refine ⟨m', k1, congrArg World.str k2, ?_, fun l hl => ?_⟩
    · rw [k2]
      exact ⟨fun l hl => (h2 l).1 hl, fun l hl hl' => (h2 l).2 hl hl'⟩
    · rw [show m'.bytes = _ from k4]
      exact stored_out (.inr (by simp; omega))
  | _ => exact k4.elim

/-- A call that takes no text touches no byte but those of the string. -/
theorem machine_op_own [ValidCapacity N] (h : Ready L caller arg top (abs m)) (htop : N < top) (hs : Holds m.str cs)
    (op : Op) (hop : op.Ok) (ht : texts op = []) :
    (exec caller arg op m).1 = (step N op cs).1.toRes ∧ Holds (exec caller arg op m).2.str (step N op cs).2 ∧
      Ready L caller arg top (abs (exec caller arg op m).2) ∧
      ∀ l, N < l → (exec caller arg op m).2.bytes l = m.bytes l := by
  obtain ⟨e1, e2, e3, -⟩ := machine_op h htop hs op hop (by simp [ht])
  refine ⟨e1, e2, e3, fun l hl => ?_⟩
  obtain ⟨w', k1, -⟩ := Borrow.Ready.of_sim (Borrow.sim_exec (hN := htop) h
    (show Borrow.Shape (abs m).str from ⟨hs.1, hs.2.1⟩) (op := op) (by simp [ht]))
  have hr : Settled (Verif.exec op m.str).1 := by
    rw [(exec_step op hop m.str cs hs).1]
    exact toRes_ne _
  obtain ⟨m', j1, -, -, j4⟩ := sim_exec (caller := caller) (arg := arg) (op := op) (K := 0)
    (show Valid N m.bytes from ⟨cs, hs⟩) (by simp [ht]) m rfl _ _ k1 hr
  rw [j1]
  exact j4 l hl

variable {α : Type}

/-- A statement that only reads. -/
theorem told {looks : Prop} {x : M (Mem R N) Failure α} {f : α → M (Mem R N) Failure Told} {a : α} {r : Told} (htop : N < top)
    (h : Ready L caller arg top (abs m)) (hs : Holds m.str cs)
    (hx : Reads L (start N caller arg) (startOk R N caller arg) top m.bytes x (fun _ => []) (fun _ => [])
      fun y _ => y = a) (hf : f a = pure r) :
    ((x >>= f) m).1 = .ok r ∧ Holds ((x >>= f) m).2.str cs ∧ Ready L caller arg top (abs ((x >>= f) m).2) ∧
      (∀ l, N < l → ((x >>= f) m).2.bytes l = m.bytes l) ∧ (looks → ((x >>= f) m).2.bytes = m.bytes) := by
  obtain ⟨y, m', e1, e2, e3, rfl⟩ := ready_run htop h hx
  rw [Borrow.bind_ok e1, hf]
  refine ⟨rfl, ?_, e3, fun l _ => by rw [← e2]; rfl, fun _ => e2⟩
  show Holds (strOf N m'.bytes) cs
  rw [e2]
  exact hs

theorem machine_deed [ValidCapacity N] (h : Ready L caller arg top (abs m)) (htop : N < top) (hs : Holds m.str cs)
    (s : Deed) (hc : CallOk s) (hp : ∀ p ∈ s.places, Placed top m others p) :
    (deed caller arg s m).1 = (s.step N others cs).1 ∧ Holds (deed caller arg s m).2.str (s.step N others cs).2 ∧
      Ready L caller arg top (abs (deed caller arg s m).2) ∧
      (∀ l, N < l → (deed caller arg s m).2.bytes l = m.bytes l) ∧
      (s.looks = true → (deed caller arg s m).2.bytes = m.bytes) := by
  have at1 : ∀ {p}, p ∈ s.places →
      At.Stored N m.bytes (address p) (p.text cs others) ∧
      Borrow.Usable (start N caller arg) (fun _ => []) (refTo caller arg p) (address p) (address p + N + 1) ∧
      address p + N + 1 ≤ top :=
    fun h => ⟨(hp _ h).stored hs, usable_place (hp _ h).ok htop⟩
  cases s with
  | call op =>
    obtain ⟨h1, h2, h3, h4⟩ := machine_op_own h htop hs op hc.1 hc.2
    obtain ⟨x, hx⟩ : ∃ x, exec caller arg op m = x := ⟨_, rfl⟩
    obtain ⟨r, m'⟩ := x
    rw [hx] at h1 h2 h3 h4
    dsimp only at h1 h2 h3 h4
    have e : deed caller arg (.call op) m = (r >>= fun o => .ok (.out o), m') := by
      show M.bind _ _ m = _
      unfold M.bind
      rw [hx]
      cases r <;> rfl
    rw [e]
    subst h1
    refine ⟨?_, h2, h3, h4, nofun⟩
    simp only [Deed.step]
    cases (step N op cs).1 <;> rfl
  | eq p q =>
    obtain ⟨a1, a2, a3⟩ := at1 (p := p) (by simp [Deed.places])
    obtain ⟨b1, b2, b3⟩ := at1 (p := q) (by simp [Deed.places])
    exact told htop h hs (At.reads_eq a1 b1 a2 a3 b2 b3) rfl
  | ne p q =>
    obtain ⟨a1, a2, a3⟩ := at1 (p := p) (by simp [Deed.places])
    obtain ⟨b1, b2, b3⟩ := at1 (p := q) (by simp [Deed.places])
    exact told htop h hs (At.reads_ne a1 b1 a2 a3 b2 b3) rfl
  | cmp p q =>
    obtain ⟨a1, a2, a3⟩ := at1 (p := p) (by simp [Deed.places])
    obtain ⟨b1, b2, b3⟩ := at1 (p := q) (by simp [Deed.places])
    exact told htop h hs (At.reads_cmp a1 b1 a2 a3 b2 b3) rfl
  | partialCmp p q =>
    obtain ⟨a1, a2, a3⟩ := at1 (p := p) (by simp [Deed.places])
    obtain ⟨b1, b2, b3⟩ := at1 (p := q) (by simp [Deed.places])
    exact told htop h hs (At.reads_partialCmp a1 b1 a2 a3 b2 b3) rfl
  | lt p q =>
    obtain ⟨a1, a2, a3⟩ := at1 (p := p) (by simp [Deed.places])
    obtain ⟨b1, b2, b3⟩ := at1 (p := q) (by simp [Deed.places])
    refine told htop h hs (At.reads_compared a1 b1 a2 a3 b2 b3) ?_
    cases Spec.cmpText (p.text cs others) (q.text cs others) <;> rfl
  | le p q =>
    obtain ⟨a1, a2, a3⟩ := at1 (p := p) (by simp [Deed.places])
    obtain ⟨b1, b2, b3⟩ := at1 (p := q) (by simp [Deed.places])
    refine told htop h hs (At.reads_compared a1 b1 a2 a3 b2 b3) ?_
    cases Spec.cmpText (p.text cs others) (q.text cs others) <;> rfl
  | gt p q =>
    obtain ⟨a1, a2, a3⟩ := at1 (p := p) (by simp [Deed.places])
    obtain ⟨b1, b2, b3⟩ := at1 (p := q) (by simp [Deed.places])
    refine told htop h hs (At.reads_compared a1 b1 a2 a3 b2 b3) ?_
    cases Spec.cmpText (p.text cs others) (q.text cs others) <;> rfl
  | ge p q =>
    obtain ⟨a1, a2, a3⟩ := at1 (p := p) (by simp [Deed.places])
    obtain ⟨b1, b2, b3⟩ := at1 (p := q) (by simp [Deed.places])
    refine told htop h hs (At.reads_compared a1 b1 a2 a3 b2 b3) ?_
    cases Spec.cmpText (p.text cs others) (q.text cs others) <;> rfl
  | clone p =>
    obtain ⟨a1, a2, a3⟩ := at1 (p := p) (by simp [Deed.places])
    refine told htop h hs (At.reads_clone a2 a3) ?_
    rw [a1.holds.asStr]
    rfl
  | assign p =>
    obtain ⟨a1, a2, a3⟩ := at1 (p := p) (by simp [Deed.places])
    obtain ⟨y, m', e1, e2, e3, rfl⟩ := ready_run htop h (At.reads_copy (ε := Failure) a2 a3)
    obtain ⟨m'', k1, k2, k3, k4⟩ := ready_store (ε := Failure) e3 _ a1.holds.1
    simp only [deed, Deed.step]
    rw [Borrow.bind_ok e1, Borrow.bind_ok k1]
    refine ⟨rfl, ?_, k3, fun l hl => (k4 l hl).trans (by rw [e2]), nofun⟩
    show Holds m''.str _
    rw [k2]
    exact a1.holds
  | debug p =>
    obtain ⟨a1, a2, a3⟩ := at1 (p := p) (by simp [Deed.places])
    obtain ⟨y, m', e1, e2, e3, e4, e5⟩ := ready_run htop h (At.reads_debug (ε := Failure) a1 a2 a3)
    simp only [deed, Deed.step]
    rw [Borrow.bind_ok e1, ← e4, ← e5]
    refine ⟨rfl, ?_, e3, fun l _ => by rw [← e2]; rfl, fun _ => e2⟩
    show Holds (strOf N m'.bytes) cs
    rw [e2]
    exact hs
  | serialize p =>
    obtain ⟨a1, a2, a3⟩ := at1 (p := p) (by simp [Deed.places])
    exact told htop h hs (At.reads_serialize a1 a2 a3) rfl
  | toSql p =>
    obtain ⟨a1, a2, a3⟩ := at1 (p := p) (by simp [Deed.places])
    exact told htop h hs (At.reads_toSql a1 a2 a3) rfl

theorem machine_deeds [ValidCapacity N] (h : Ready L caller arg top (abs m)) (htop : N < top) (hs : Holds m.str cs)
    (ss : List Deed) (hc : ∀ s ∈ ss, CallOk s) (hp : ∀ s ∈ ss, ∀ p ∈ s.places, Placed top m others p) :
    (deeds caller arg ss m).1 = (Deed.steps N others ss cs).1 ∧
      Holds (deeds caller arg ss m).2.str (Deed.steps N others ss cs).2 ∧
      Ready L caller arg top (abs (deeds caller arg ss m).2) ∧
      ∀ l, N < l → (deeds caller arg ss m).2.bytes l = m.bytes l := by
  induction ss generalizing m cs with
  | nil => exact ⟨rfl, hs, h, fun _ _ => rfl⟩
  | cons s ss ih =>
    obtain ⟨e1, h1, g1, f1, -⟩ := machine_deed h htop hs s (hc s List.mem_cons_self) (hp s List.mem_cons_self)
    obtain ⟨i1, i2, i3, i4⟩ := ih g1 h1 (fun s h => hc s (List.mem_cons_of_mem _ h))
      (fun s h p hp' => (hp s (List.mem_cons_of_mem _ h) p hp').congr f1)
    simp only [deeds, Deed.steps]
    exact ⟨by rw [i1, e1], i2, i3, fun l hl => (i4 l hl).trans (f1 l hl)⟩

end

end Verif.Machine

namespace Verif
open Spec Borrow
open Machine (Mem Stores abs strOf stores_iff Placed CallOk deed deeds machine_deed machine_deeds store)
open Machine.At (Stored)

variable {N : Nat}

/-- C68, Stacked Borrows: with an own string that stores the text `cs` and others with the texts `others`
behind a shared reference, any sequence of statements, each computing with the bytes that it loads, tells what
the texts tell, and leaves the own string with the text that they say; it has no undefined behaviour, leaves the
references usable, and changes no byte outside the own string. -/
theorem C68_stacked [ValidCapacity N] (caller arg : Tag) (top : Nat) (m : Mem Stacked.rules N)
    (cs : List Char) (others : Nat → List Char) (ss : List Deed) (htop : N < top)
    (h : StackedReady caller arg top (abs m)) (hs : Stores m cs) (hc : ∀ s ∈ ss, CallOk s)
    (hp : ∀ s ∈ ss, ∀ p ∈ s.places, Placed top m others p) :
    (deeds caller arg ss m).1 = (Deed.steps N others ss cs).1 ∧
    Stores (deeds caller arg ss m).2 (Deed.steps N others ss cs).2 ∧
    StackedReady caller arg top (abs (deeds caller arg ss m).2) ∧
    ∀ l, N < l → (deeds caller arg ss m).2.bytes l = m.bytes l := by
  rw [stackedReady_iff, stores_iff]
  exact machine_deeds (stackedReady_iff.1 h) htop (stores_iff.1 hs) ss hc hp

/-- C68, Tree Borrows. -/
theorem C68_tree [ValidCapacity N] (caller arg : Tag) (top : Nat) (m : Mem Tree.rules N)
    (cs : List Char) (others : Nat → List Char) (ss : List Deed) (htop : N < top)
    (h : TreeReady caller arg top (abs m)) (hs : Stores m cs) (hc : ∀ s ∈ ss, CallOk s)
    (hp : ∀ s ∈ ss, ∀ p ∈ s.places, Placed top m others p) :
    (deeds caller arg ss m).1 = (Deed.steps N others ss cs).1 ∧
    Stores (deeds caller arg ss m).2 (Deed.steps N others ss cs).2 ∧
    TreeReady caller arg top (abs (deeds caller arg ss m).2) ∧
    ∀ l, N < l → (deeds caller arg ss m).2.bytes l = m.bytes l := by
  rw [treeReady_iff, stores_iff]
  exact machine_deeds (treeReady_iff.1 h) htop (stores_iff.1 hs) ss hc hp

/-- C68, Tree Borrows as in Miri (C62). -/
theorem C68_outer [ValidCapacity N] (caller arg : Tag) (top : Nat) (m : Mem Tree.rulesOuter N)
    (cs : List Char) (others : Nat → List Char) (ss : List Deed) (htop : N < top)
    (h : OuterReady caller arg top (abs m)) (hs : Stores m cs) (hc : ∀ s ∈ ss, CallOk s)
    (hp : ∀ s ∈ ss, ∀ p ∈ s.places, Placed top m others p) :
    (deeds caller arg ss m).1 = (Deed.steps N others ss cs).1 ∧
    Stores (deeds caller arg ss m).2 (Deed.steps N others ss cs).2 ∧
    OuterReady caller arg top (abs (deeds caller arg ss m).2) ∧
    ∀ l, N < l → (deeds caller arg ss m).2.bytes l = m.bytes l := by
  rw [outerReady_iff, stores_iff]
  exact machine_deeds (outerReady_iff.1 h) htop (stores_iff.1 hs) ss hc hp

/-- C68: a statement that only looks changes no byte at all, under either set of rules. -/
theorem C68_looks [ValidCapacity N] (caller arg : Tag) (top : Nat) (cs : List Char) (others : Nat → List Char)
    (s : Deed) (htop : N < top) (hl : s.looks = true) :
    (∀ m : Mem Stacked.rules N, StackedReady caller arg top (abs m) → Stores m cs →
      (∀ p ∈ s.places, Placed top m others p) → (deed caller arg s m).2.bytes = m.bytes) ∧
    (∀ m : Mem Tree.rules N, TreeReady caller arg top (abs m) → Stores m cs →
      (∀ p ∈ s.places, Placed top m others p) → (deed caller arg s m).2.bytes = m.bytes) ∧
    ∀ m : Mem Tree.rulesOuter N, OuterReady caller arg top (abs m) → Stores m cs →
      (∀ p ∈ s.places, Placed top m others p) → (deed caller arg s m).2.bytes = m.bytes := by
  have hc : CallOk s := by
    cases s <;> first | trivial | cases hl
  exact ⟨fun m h hs hp => (machine_deed (stackedReady_iff.1 h) htop (stores_iff.1 hs) s hc hp).2.2.2.2 hl,
    fun m h hs hp => (machine_deed (treeReady_iff.1 h) htop (stores_iff.1 hs) s hc hp).2.2.2.2 hl,
    fun m h hs hp => (machine_deed (outerReady_iff.1 h) htop (stores_iff.1 hs) s hc hp).2.2.2.2 hl⟩

/-- C68: at the address `0` the functions are those of C66. -/
theorem C68_at_zero {R : Rules} {ε : Type} (self : Tag) :
    (Machine.At.len 0 self : M (Mem R N) ε Nat) = Machine.len self ∧
    (Machine.At.asRefBytes 0 self : M (Mem R N) ε _) = Machine.asRefBytes self ∧
    (Machine.At.asRefStr 0 self : M (Mem R N) ε _) = Machine.asRefStr self ∧
    (Machine.At.asStr 0 self : M (Mem R N) ε _) = Machine.asStr self := by
  have h1 : ∀ {ε : Type} (self : Tag), (Machine.At.len 0 self : M (Mem R N) ε Nat) = Machine.len self := by
    intro ε self
    simp only [Machine.At.len, Machine.len, Machine.At.callShared, Machine.callShared, Nat.zero_add]
  have h2 : ∀ {ε : Type} (self : Tag), (Machine.At.asRefBytes 0 self : M (Mem R N) ε _) = Machine.asRefBytes self := by
    intro ε self
    simp only [Machine.At.asRefBytes, Machine.asRefBytes, Machine.At.callRef, Machine.callRef, Machine.At.callShared,
      Machine.callShared, Nat.zero_add, h1]
  have h3 : ∀ {ε : Type} (self : Tag), (Machine.At.asRefStr 0 self : M (Mem R N) ε _) = Machine.asRefStr self := by
    intro ε self
    simp only [Machine.At.asRefStr, Machine.asRefStr, Machine.At.callRef, Machine.callRef, Machine.At.callShared,
      Machine.callShared, Nat.zero_add, h2]
  refine ⟨h1 self, h2 self, h3 self, ?_⟩
  have : (Machine.At.asRefStr 0 : Tag → M (Mem R N) ε _) = Machine.asRefStr := funext h3
  simp only [Machine.At.asStr, Machine.asStr, Machine.At.callRef, Machine.callRef, Machine.At.callShared,
    Machine.callShared, Nat.zero_add, this]

/-- Memory of capacity 8: "hé€" at 0, "hé" at 9, "hé€" again at 18, with other bytes after it, `0xFF` elsewhere. -/
def manyBytes (l : Nat) : UInt8 :=
  ([0x68, 0xC3, 0xA9, 0xE2, 0x82, 0xAC, 0xFF, 0xFF, 6, 0x68, 0xC3, 0xA9, 0xFF, 0xFF, 0xFF, 0xFF, 0xFF, 3,
    0x68, 0xC3, 0xA9, 0xE2, 0x82, 0xAC, 0x41, 0x42, 6][l]?).getD 0xFF

def manyOthers (o : Nat) : List Char := if o = 9 then ['h', 'é'] else ['h', 'é', '€']

/-- Comparing the own string with itself and with others, taking over another one, changing it, and looking
again. -/
def manyDeeds : List Deed :=
  [.eq .own (.at 18), .eq .own (.at 9), .ne (.at 9) (.at 18), .cmp .own .own, .cmp .own (.at 9), .lt (.at 9) .own,
    .partialCmp (.at 9) (.at 18), .clone (.at 18), .assign (.at 9), .call (.tryPush 'z'), .cmp .own (.at 18),
    .ge .own (.at 9), .call .pop, .call .pop, .call .pop, .call .pop, .le .own (.at 9), .gt .own (.at 9),
    .debug (.at 9), .serialize (.at 18), .toSql .own, .assign .own]

/-- The hypotheses of C68 hold of it. -/
example : Stores (stackedMem manyBytes : Mem Stacked.rules 8) ['h', 'é', '€'] ∧
    Stores (treeMem manyBytes : Mem Tree.rules 8) ['h', 'é', '€'] ∧
    StackedReady 1 3 27 (abs (stackedMem manyBytes : Mem Stacked.rules 8)) ∧
    TreeReady 1 3 27 (abs (treeMem manyBytes : Mem Tree.rules 8)) ∧
    OuterReady 1 3 27 (abs (⟨manyBytes, (treeMem manyBytes : Mem Tree.rules 8).mem, 4⟩ : Mem Tree.rulesOuter 8)) ∧
    (∀ s ∈ manyDeeds, CallOk s) ∧
    (∀ s ∈ manyDeeds, ∀ p ∈ s.places, Placed 27 (stackedMem manyBytes : Mem Stacked.rules 8) manyOthers p) := by
  have h9 : Stored 8 manyBytes 9 (manyOthers 9) := ⟨by decide, by decide, by decide⟩
  have h18 : Stored 8 manyBytes 18 (manyOthers 18) := ⟨by decide, by decide, by decide⟩
  refine ⟨⟨by decide, by decide, by decide⟩, ⟨by decide, by decide, by decide⟩, stackedMem_ready _ _, treeMem_ready _ _,
    treeMem_ready (N := 8) manyBytes 27, ?_, ?_⟩
  · simp [manyDeeds, CallOk, Op.Ok, texts]
  · simp [manyDeeds, Deed.places, Placed, stackedMem, h9, h18]

/-- What they tell. -/
example : Deed.steps 8 manyOthers manyDeeds ['h', 'é', '€'] =
    ([.ok (.out (.bool true)), .ok (.out (.bool false)), .ok (.out (.bool true)), .ok (.out (.ordering .eq)),
      .ok (.out (.ordering .gt)), .ok (.out (.bool true)), .ok (.partialOrdering (some .lt)),
      .ok (.out (.str [0x68, 0xC3, 0xA9, 0xE2, 0x82, 0xAC])), .ok (.out .unit), .ok (.out .unit),
      .ok (.out (.ordering .lt)), .ok (.out (.bool true)), .ok (.out (.optChar (some 'z'))),
      .ok (.out (.optChar (some 'é'))), .ok (.out (.optChar (some 'h'))), .ok (.out (.optChar none)),
      .ok (.out (.bool true)), .ok (.out (.bool false)), .ok (.fields [0x68, 0xC3, 0xA9] 3),
      .ok (.out (.str [0x68, 0xC3, 0xA9, 0xE2, 0x82, 0xAC])), .ok (.out (.str [])), .ok (.out .unit)], []) := by
  decide

/-! ## Tests -/

/-- The bytes do decide, not the bytes beyond the text: the same statements without the theorems. -/
example : (deeds 1 3 [.eq .own (.at 18), .cmp (.at 9) .own, .debug (.at 9)]
      (stackedMem manyBytes : Mem Stacked.rules 8)).1 =
      [.ok (.out (.bool true)), .ok (.out (.ordering .lt)), .ok (.fields [0x68, 0xC3, 0xA9] 3)] ∧
    (deeds 1 3 [.eq .own (.at 18), .cmp (.at 9) .own, .debug (.at 9)] (treeMem manyBytes : Mem Tree.rules 8)).1 =
      [.ok (.out (.bool true)), .ok (.out (.ordering .lt)), .ok (.fields [0x68, 0xC3, 0xA9] 3)] := by
  decide +kernel

/-- After their owner has written to the other strings, the reference to them may not be used. -/
example : ∀ s ∈ [Deed.eq .own (.at 9), .cmp (.at 9) .own, .clone (.at 9), .assign (.at 9), .debug (.at 9),
      .serialize (.at 9), .toSql (.at 9)],
    ((do
      store 2 9 [0x41]
      deed 1 3 s : M (Mem Stacked.rules 8) Failure Told) (stackedMem manyBytes)).1 = .ub ∧
    ((do
      store 2 9 [0x41]
      deed 1 3 s : M (Mem Tree.rules 8) Failure Told) (treeMem manyBytes)).1 = .ub := by
  decide +kernel

end Verif
