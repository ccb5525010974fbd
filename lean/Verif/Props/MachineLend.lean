import Verif.Proofs.MachineLend
import Verif.Props.MachineCacheMany

/-!
# Texts of other strings as arguments

C70.  The programs of C68 and C69 also pass the text of another string, or any text in memory, to calls on their
own string.
-/

namespace Verif.Machine
open Spec
open Borrow (Rules Tag World Laws Ready Usable Covers Settled)

variable {N : Nat}

/-- What the caller has to see to: the strings and texts that the statement uses are where it says, behind `arg`. -/
def ActOk {R : Rules} (top : Nat) (m : Mem R N) (others : Nat → List Char) : Act → Prop
  | .deed d => CallOk d ∧ ∀ p ∈ d.places, Placed top m others p
  | .give c o => (c.op (others o)).Ok ∧ Placed top m others (.at o)
  | .lend c o w => (c.op w).Ok ∧ N + 1 ≤ o ∧ o + byteLen w ≤ top ∧ TextAt m.bytes o w

section
variable {R : Rules} {L : Laws R} {caller arg : Tag} {top o : Nat} {cs w : List Char} {others : Nat → List Char}

theorem ActOk.congr {m m' : Mem R N} {a : Act} (h : ActOk top m others a) (he : ∀ l, N < l → m'.bytes l = m.bytes l) :
    ActOk top m' others a := by
  cases a with
  | deed d => exact ⟨h.1, fun p hp => (h.2 p hp).congr he⟩
  | give c o => exact ⟨h.1, h.2.congr he⟩
  | lend c o w =>
    obtain ⟨h1, h2, h3, h4⟩ := h
    exact ⟨h1, h2, h3, fun i hi => by rw [he _ (by omega)]; exact h4 i hi⟩

/-- A reference to the text, made by reading, and a call with it. -/
theorem act_window {m : Mem R N} {c : TextCall} {x : M (Mem R N) Failure (Tag × Nat)}
    {body : Tag → Nat → M (Mem R N) Failure Out} (h : Ready L caller arg top (abs m))
    (hx : Reads L (start N caller arg) (startOk R N caller arg) top m.bytes x (fun _ => []) (fun _ => [])
      (At.RefAt o (byteLen w)))
    (hb : ∀ a T m', m'.bytes = m.bytes →
      Borrow.Inv L (start N caller arg) (startOk R N caller arg) top T (fun _ => []) (abs m') →
      Usable (start N caller arg) T a o (o + byteLen w) →
      (window o (byteLen w) (body a (byteLen w)) m').1 = (step N (c.op w) cs).1.toRes ∧
      Holds (window o (byteLen w) (body a (byteLen w)) m').2.str (step N (c.op w) cs).2 ∧
      Ready L caller arg top (abs (window o (byteLen w) (body a (byteLen w)) m').2) ∧
      ∀ l, N < l → (window o (byteLen w) (body a (byteLen w)) m').2.bytes l = m'.bytes l) :
    let y : M (Mem R N) Failure Told := do
      let (a, k) ← x
      let r ← window o k (body a k)
      pure (.out r)
    (y m).1 = ((Deed.call (c.op w)).step N others cs).1 ∧ Holds (y m).2.str ((Deed.call (c.op w)).step N others cs).2 ∧
      Ready L caller arg top (abs (y m).2) ∧ ∀ l, N < l → (y m).2.bytes l = m.bytes l := by
  intro y
  obtain ⟨⟨a, k⟩, m', T', e1, e2, e3, -, e4, e5⟩ := hx m rfl (ready_inv h)
  dsimp only at e4 e5
  subst e4
  obtain ⟨h1, h2, h3, h4⟩ := hb a T' m' e2 e3 e5.usable
  obtain ⟨z, hz⟩ : ∃ z, window o (byteLen w) (body a (byteLen w)) m' = z := ⟨_, rfl⟩
  obtain ⟨r, m''⟩ := z
  rw [hz] at h1 h2 h3 h4
  dsimp only at h1 h2 h3 h4
  have e : y m = (r >>= fun o => .ok (.out o), m'') := by
    show (x >>= _) m = _
    rw [Borrow.bind_ok e1]
    show M.bind _ _ m' = _
    unfold M.bind
    dsimp only
    rw [hz]
    cases r <;> rfl
  rw [e]
  subst h1
  refine ⟨?_, h2, h3, fun l hl => (h4 l hl).trans (by rw [e2])⟩
  simp only [Deed.step]
  cases (step N (c.op w) cs).1 <;> rfl

theorem machine_act [ValidCapacity N] {m : Mem R N} (h : Ready L caller arg top (abs m)) (htop : N < top) (hs : Holds m.str cs)
    (a : Act) (ha : ActOk top m others a) :
    (act caller arg a m).1 = (a.step N others cs).1 ∧ Holds (act caller arg a m).2.str (a.step N others cs).2 ∧
      Ready L caller arg top (abs (act caller arg a m).2) ∧
      ∀ l, N < l → (act caller arg a m).2.bytes l = m.bytes l := by
  cases a with
  | deed d =>
    obtain ⟨h1, h2, h3, h4, -⟩ := machine_deed h htop hs d ha.1 ha.2
    exact ⟨h1, h2, h3, h4⟩
  | give c o =>
    obtain ⟨h1, h2, h3, h4⟩ := ha
    obtain ⟨u1, u2⟩ := usable_place (caller := caller) (arg := arg) (p := .at o) ⟨h2, h3⟩ htop
    refine act_window (c := c) (cs := cs) (others := others) (body := fun a k => execText caller a k c) h
      (At.reads_asStr h4 u1 u2) fun a T m' e hi hu => ?_
    have := h4.fits
    exact window_exec (by omega) (by omega) hi hu (by show Holds (strOf N m'.bytes) cs; rw [e]; exact hs)
      (by rw [e]; exact h4.text) h1
  | lend c o w =>
    obtain ⟨h1, h2, h3, h4⟩ := ha
    have hl : (utf8 w).length = byteLen w := length_utf8 w
    have := act_window (x := retagShared arg o (o + byteLen w) false >>= fun a => pure (a, byteLen w))
      (body := fun a k => execText caller a k c) (c := c) (others := others) (cs := cs) (w := w) h
      (reads_bind (reads_shared (t := arg) (fun l h1 h2 => .inl (by simp only [start]; rw [if_neg (by omega)])) h3)
        fun a T _ hc => reads_pure ⟨rfl, hc⟩)
      fun a T m' e hi hu => window_exec (by omega) h3 hi hu (by show Holds (strOf N m'.bytes) cs; rw [e]; exact hs)
        (by rw [e]; exact h4) h1
    simp only [Verif.Machine.act, hl]
    rw [Borrow.bind_assoc'] at this
    exact this

theorem machine_acts [ValidCapacity N] {m : Mem R N} (h : Ready L caller arg top (abs m)) (htop : N < top) (hs : Holds m.str cs)
    (as : List Act) (ha : ∀ a ∈ as, ActOk top m others a) :
    (acts caller arg as m).1 = (Act.steps N others as cs).1 ∧
      Holds (acts caller arg as m).2.str (Act.steps N others as cs).2 ∧
      Ready L caller arg top (abs (acts caller arg as m).2) ∧
      ∀ l, N < l → (acts caller arg as m).2.bytes l = m.bytes l := by
  induction as generalizing m cs with
  | nil => exact ⟨rfl, hs, h, fun _ _ => rfl⟩
  | cons a as ih =>
    obtain ⟨e1, h1, g1, f1⟩ := machine_act h htop hs a (ha a List.mem_cons_self)
    obtain ⟨i1, i2, i3, i4⟩ := ih g1 h1 (fun b h => (ha b (List.mem_cons_of_mem _ h)).congr f1)
    simp only [acts, Act.steps]
    exact ⟨by rw [i1, e1], i2, i3, fun l hl => (i4 l hl).trans (f1 l hl)⟩

/-- `as_str` of another `CacheString`. -/
theorem reads_asStrAt {ε : Type} {b : Nat → Tag} {B : Nat → R.St → Prop} {g : Nat → UInt8} {T P : Nat → List Tag} {self : Tag}
    (hg : At.Stored N g o cs) (hself : Usable b T self o (o + N + 1)) (hh : o + N + 1 ≤ top) :
    Reads L b B top g (Cache.asStrAt o self : M (Mem R N) ε (Tag × Nat)) T P (At.RefAt o (byteLen cs)) :=
  reads_bind (reads_shared hself hh) fun _ _ _ c1 =>
  reads_bind (reads_through c1.usable hh (Nat.le_refl _) (Nat.le_refl _)) fun _ _ _ c2 =>
    At.reads_asStr hg c2.usable hh

theorem cache_act {m : Mem R 63} (h : Ready L caller arg top (abs m)) (htop : 63 < top) (hs : Holds m.str cs)
    (a : Act) (ha : ActOk top m others a) :
    (Cache.act caller arg a m).1 = (a.step 63 others cs).1 ∧ Holds (Cache.act caller arg a m).2.str (a.step 63 others cs).2 ∧
      Ready L caller arg top (abs (Cache.act caller arg a m).2) ∧
      ∀ l, 63 < l → (Cache.act caller arg a m).2.bytes l = m.bytes l := by
  cases a with
  | deed d =>
    obtain ⟨h1, h2, h3, h4, -⟩ := Cache.cache_deed h htop hs d ha.1 ha.2
    exact ⟨h1, h2, h3, h4⟩
  | give c o =>
    obtain ⟨h1, h2, h3, h4⟩ := ha
    obtain ⟨u1, u2⟩ := usable_place (caller := caller) (arg := arg) (p := .at o) ⟨h2, h3⟩ htop
    refine act_window (c := c) (cs := cs) (others := others) (body := fun a k => Cache.execText caller a k c) h
      (reads_asStrAt h4 u1 u2) fun a T m' e hi hu => ?_
    have := h4.fits
    exact window_cacheExec (by omega) (by omega) hi hu (by show Holds (strOf 63 m'.bytes) cs; rw [e]; exact hs)
      (by rw [e]; exact h4.text) h1
  | lend c o w =>
    obtain ⟨h1, h2, h3, h4⟩ := ha
    have hl : (utf8 w).length = byteLen w := length_utf8 w
    have := act_window (x := retagShared arg o (o + byteLen w) false >>= fun a => pure (a, byteLen w))
      (body := fun a k => Cache.execText caller a k c) (c := c) (others := others) (cs := cs) (w := w) h
      (reads_bind (reads_shared (t := arg) (fun l h1 h2 => .inl (by simp only [start]; rw [if_neg (by omega)])) h3)
        fun a T _ hc => reads_pure ⟨rfl, hc⟩)
      fun a T m' e hi hu => window_cacheExec (by omega) h3 hi hu (by show Holds (strOf 63 m'.bytes) cs; rw [e]; exact hs)
        (by rw [e]; exact h4) h1
    simp only [Verif.Machine.Cache.act, hl]
    rw [Borrow.bind_assoc'] at this
    exact this

theorem cache_acts {m : Mem R 63} (h : Ready L caller arg top (abs m)) (htop : 63 < top) (hs : Holds m.str cs)
    (as : List Act) (ha : ∀ a ∈ as, ActOk top m others a) :
    (Cache.acts caller arg as m).1 = (Act.steps 63 others as cs).1 ∧
      Holds (Cache.acts caller arg as m).2.str (Act.steps 63 others as cs).2 ∧
      Ready L caller arg top (abs (Cache.acts caller arg as m).2) ∧
      ∀ l, 63 < l → (Cache.acts caller arg as m).2.bytes l = m.bytes l := by
  induction as generalizing m cs with
  | nil => exact ⟨rfl, hs, h, fun _ _ => rfl⟩
  | cons a as ih =>
    obtain ⟨e1, h1, g1, f1⟩ := cache_act h htop hs a (ha a List.mem_cons_self)
    obtain ⟨i1, i2, i3, i4⟩ := ih g1 h1 (fun b h => (ha b (List.mem_cons_of_mem _ h)).congr f1)
    simp only [Cache.acts, Act.steps]
    exact ⟨by rw [i1, e1], i2, i3, fun l hl => (i4 l hl).trans (f1 l hl)⟩

end

end Verif.Machine

namespace Verif
open Spec Borrow
open Machine (Mem Stores abs strOf stores_iff Placed CallOk ActOk TextAt store)
open Machine.At (Stored)

variable {N : Nat}

/-- C70, Stacked Borrows: with an own string that stores the text `cs`, and other strings and texts behind a shared
reference, any sequence of statements, also calls on the own string with the text of another one, of which the call
is told only where and how long it is, tells what the texts tell, and leaves the own string with the text that they
say; it has no undefined behaviour, leaves the references usable, and changes no byte outside the own string. -/
theorem C70_stacked [ValidCapacity N] (caller arg : Tag) (top : Nat) (m : Mem Stacked.rules N)
    (cs : List Char) (others : Nat → List Char) (as : List Act) (htop : N < top)
    (h : StackedReady caller arg top (abs m)) (hs : Stores m cs) (ha : ∀ a ∈ as, ActOk top m others a) :
    (Machine.acts caller arg as m).1 = (Act.steps N others as cs).1 ∧
    Stores (Machine.acts caller arg as m).2 (Act.steps N others as cs).2 ∧
    StackedReady caller arg top (abs (Machine.acts caller arg as m).2) ∧
    ∀ l, N < l → (Machine.acts caller arg as m).2.bytes l = m.bytes l := by
  rw [stackedReady_iff, stores_iff]
  exact Machine.machine_acts (stackedReady_iff.1 h) htop (stores_iff.1 hs) as ha

/-- C70, Tree Borrows. -/
theorem C70_tree [ValidCapacity N] (caller arg : Tag) (top : Nat) (m : Mem Tree.rules N)
    (cs : List Char) (others : Nat → List Char) (as : List Act) (htop : N < top)
    (h : TreeReady caller arg top (abs m)) (hs : Stores m cs) (ha : ∀ a ∈ as, ActOk top m others a) :
    (Machine.acts caller arg as m).1 = (Act.steps N others as cs).1 ∧
    Stores (Machine.acts caller arg as m).2 (Act.steps N others as cs).2 ∧
    TreeReady caller arg top (abs (Machine.acts caller arg as m).2) ∧
    ∀ l, N < l → (Machine.acts caller arg as m).2.bytes l = m.bytes l := by
  rw [treeReady_iff, stores_iff]
  exact Machine.machine_acts (treeReady_iff.1 h) htop (stores_iff.1 hs) as ha

/-- C70, Tree Borrows as in Miri (C62). -/
theorem C70_outer [ValidCapacity N] (caller arg : Tag) (top : Nat) (m : Mem Tree.rulesOuter N)
    (cs : List Char) (others : Nat → List Char) (as : List Act) (htop : N < top)
    (h : OuterReady caller arg top (abs m)) (hs : Stores m cs) (ha : ∀ a ∈ as, ActOk top m others a) :
    (Machine.acts caller arg as m).1 = (Act.steps N others as cs).1 ∧
    Stores (Machine.acts caller arg as m).2 (Act.steps N others as cs).2 ∧
    OuterReady caller arg top (abs (Machine.acts caller arg as m).2) ∧
    ∀ l, N < l → (Machine.acts caller arg as m).2.bytes l = m.bytes l := by
  rw [outerReady_iff, stores_iff]
  exact Machine.machine_acts (outerReady_iff.1 h) htop (stores_iff.1 hs) as ha

/-- C70 for `CacheString`, Stacked Borrows. -/
theorem C70_cache_stacked (caller arg : Tag) (top : Nat) (m : Mem Stacked.rules 63)
    (cs : List Char) (others : Nat → List Char) (as : List Act) (htop : 63 < top)
    (h : StackedReady caller arg top (abs m)) (hs : Stores m cs) (ha : ∀ a ∈ as, ActOk top m others a) :
    (Machine.Cache.acts caller arg as m).1 = (Act.steps 63 others as cs).1 ∧
    Stores (Machine.Cache.acts caller arg as m).2 (Act.steps 63 others as cs).2 ∧
    StackedReady caller arg top (abs (Machine.Cache.acts caller arg as m).2) ∧
    ∀ l, 63 < l → (Machine.Cache.acts caller arg as m).2.bytes l = m.bytes l := by
  rw [stackedReady_iff, stores_iff]
  exact Machine.cache_acts (stackedReady_iff.1 h) htop (stores_iff.1 hs) as ha

/-- C70 for `CacheString`, Tree Borrows. -/
theorem C70_cache_tree (caller arg : Tag) (top : Nat) (m : Mem Tree.rules 63)
    (cs : List Char) (others : Nat → List Char) (as : List Act) (htop : 63 < top)
    (h : TreeReady caller arg top (abs m)) (hs : Stores m cs) (ha : ∀ a ∈ as, ActOk top m others a) :
    (Machine.Cache.acts caller arg as m).1 = (Act.steps 63 others as cs).1 ∧
    Stores (Machine.Cache.acts caller arg as m).2 (Act.steps 63 others as cs).2 ∧
    TreeReady caller arg top (abs (Machine.Cache.acts caller arg as m).2) ∧
    ∀ l, 63 < l → (Machine.Cache.acts caller arg as m).2.bytes l = m.bytes l := by
  rw [treeReady_iff, stores_iff]
  exact Machine.cache_acts (treeReady_iff.1 h) htop (stores_iff.1 hs) as ha

/-- C70 for `CacheString`, Tree Borrows as in Miri (C62). -/
theorem C70_cache_outer (caller arg : Tag) (top : Nat) (m : Mem Tree.rulesOuter 63)
    (cs : List Char) (others : Nat → List Char) (as : List Act) (htop : 63 < top)
    (h : OuterReady caller arg top (abs m)) (hs : Stores m cs) (ha : ∀ a ∈ as, ActOk top m others a) :
    (Machine.Cache.acts caller arg as m).1 = (Act.steps 63 others as cs).1 ∧
    Stores (Machine.Cache.acts caller arg as m).2 (Act.steps 63 others as cs).2 ∧
    OuterReady caller arg top (abs (Machine.Cache.acts caller arg as m).2) ∧
    ∀ l, 63 < l → (Machine.Cache.acts caller arg as m).2.bytes l = m.bytes l := by
  rw [outerReady_iff, stores_iff]
  exact Machine.cache_acts (outerReady_iff.1 h) htop (stores_iff.1 hs) as ha

/-- C70: where the caller has put the text before the call, the call without the text is the call of C66 and C67. -/
theorem C70_same_call {R : Rules} (caller arg : Tag) (c : TextCall) (w : List Char) (m : Mem R N)
    (hw : TextAt m.bytes (N + 1) w) :
    Machine.execText caller arg (byteLen w) c m = Machine.exec caller arg (c.op w) m ∧
    Machine.Cache.execText caller arg (byteLen w) c m = Machine.Cache.exec caller arg (c.op w) m := by
  have h : Machine.Text N (utf8 w) m.bytes := fun i hi => hw i (by rwa [length_utf8] at hi)
  rw [Machine.exec_there h, Machine.cacheExec_there h, length_utf8]
  exact ⟨rfl, rfl⟩

/-- What the memory of C68 is given. -/
def lendActs : List Act :=
  [.give .tryPushStr 9, .give .pushStrTruncate 9, .deed (.eq .own (.at 18)), .deed (.call .clear), .give .writeStr 18,
    .give (.insertStrTruncate 1) 9, .give (.tryInsertStr 2) 9, .lend (.replaceRange (.range 0 1)) 24 ['A', 'B'],
    .give .eqStr 18, .give .fromStrTruncate 18, .give .eqStr 18, .lend .add 10 ['é'], .give .parse 9,
    .give .eqStr 9, .deed (.debug (.at 18))]

/-- The hypotheses of C70 hold of it. -/
example : Stores (stackedMem manyBytes : Mem Stacked.rules 8) ['h', 'é', '€'] ∧
    StackedReady 1 3 27 (abs (stackedMem manyBytes : Mem Stacked.rules 8)) ∧
    TreeReady 1 3 27 (abs (treeMem manyBytes : Mem Tree.rules 8)) ∧
    (∀ a ∈ lendActs, ActOk 27 (stackedMem manyBytes : Mem Stacked.rules 8) manyOthers a) ∧
    (∀ a ∈ lendActs, ActOk 27 (treeMem manyBytes : Mem Tree.rules 8) manyOthers a) := by
  have h9 : Stored 8 manyBytes 9 (manyOthers 9) := ⟨by decide, by decide, by decide⟩
  have h18 : Stored 8 manyBytes 18 (manyOthers 18) := ⟨by decide, by decide, by decide⟩
  have hr : BoundOk (RangeB.range 0 1).start ∧ BoundOk (RangeB.range 0 1).stop :=
    ⟨Nat.zero_le _, Nat.le_trans (by decide) usizeMax_ge⟩
  have t24 : TextAt manyBytes 24 ['A', 'B'] := by unfold TextAt; decide
  have t10 : TextAt manyBytes 10 ['é'] := by unfold TextAt; decide
  refine ⟨⟨by decide, by decide, by decide⟩, stackedMem_ready _ _, treeMem_ready _ _, ?_, ?_⟩ <;>
    simp [lendActs, ActOk, CallOk, Deed.places, Placed, stackedMem, treeMem, TextCall.op, Op.Ok, RangeOk, texts, h9, h18, t24, t10, hr,
      show byteLen ['A', 'B'] = 2 from rfl, show byteLen ['é'] = 2 from rfl]

/-- What they tell. -/
example : Act.steps 8 manyOthers lendActs ['h', 'é', '€'] =
    ([.err .outOfBounds, .ok (.out .unit), .ok (.out (.bool false)), .ok (.out .unit), .ok (.out .unit),
      .ok (.out .unit), .err .outOfBounds, .ok (.out .unit), .ok (.out (.bool false)), .ok (.out .unit),
      .ok (.out (.bool true)), .ok (.out .unit), .ok (.out .unit), .ok (.out (.bool true)),
      .ok (.fields [0x68, 0xC3, 0xA9, 0xE2, 0x82, 0xAC] 6)], ['h', 'é']) := by
  decide

/-- What the memory of C69 is given. -/
def cacheLendActs : List Act :=
  [.give .tryPushStr 64, .give .pushStrTruncate 128, .give .eqStr 128, .deed (.call .pop),
    .lend (.insertStrTruncate 0) 131 ['€', 'A'], .give .add 64, .give .fromStrTruncate 128, .give .eqStr 128]

/-- The hypotheses of C70 hold of it. -/
example : Stores (stackedMem cacheManyBytes : Mem Stacked.rules 63) ['h', 'é', '€'] ∧
    StackedReady 1 3 192 (abs (stackedMem cacheManyBytes : Mem Stacked.rules 63)) ∧
    TreeReady 1 3 192 (abs (treeMem cacheManyBytes : Mem Tree.rules 63)) ∧
    (∀ a ∈ cacheLendActs, ActOk 192 (stackedMem cacheManyBytes : Mem Stacked.rules 63) cacheManyOthers a) ∧
    (∀ a ∈ cacheLendActs, ActOk 192 (treeMem cacheManyBytes : Mem Tree.rules 63) cacheManyOthers a) := by
  have h1 : Stored 63 cacheManyBytes 64 (cacheManyOthers 64) := ⟨by decide, by decide, by decide⟩
  have h2 : Stored 63 cacheManyBytes 128 (cacheManyOthers 128) := ⟨by decide, by decide, by decide⟩
  have t : TextAt cacheManyBytes 131 ['€', 'A'] := by unfold TextAt; decide
  refine ⟨⟨by decide, by decide, by decide⟩, stackedMem_ready _ _, treeMem_ready _ _, ?_, ?_⟩ <;>
    simp [cacheLendActs, ActOk, CallOk, Placed, Deed.places, stackedMem, treeMem, TextCall.op, Op.Ok, texts, h1, h2, t,
      show byteLen ['€', 'A'] = 4 from rfl]

/-- What they tell. -/
example : Act.steps 63 cacheManyOthers cacheLendActs ['h', 'é', '€'] =
    ([.ok (.out .unit), .ok (.out .unit), .ok (.out (.bool false)), .ok (.out (.optChar (some '€'))),
      .ok (.out .unit), .ok (.out .unit), .ok (.out .unit), .ok (.out (.bool true))], ['h', 'é', '€']) := by
  decide

/-- On this memory (tests). -/
example :
    (Machine.acts 1 3 [.give .eqStr 18, .give .eqStr 9, .lend .eqStr 21 ['€'], .deed (.assign (.at 9)), .give .eqStr 9]
      (stackedMem manyBytes : Mem Stacked.rules 8)).1 =
      [.ok (.out (.bool true)), .ok (.out (.bool false)), .ok (.out (.bool false)), .ok (.out .unit),
        .ok (.out (.bool true))] ∧
    (Machine.acts 1 3 [.give .eqStr 18, .give .eqStr 9, .lend .eqStr 21 ['€'], .deed (.assign (.at 9)), .give .eqStr 9]
      (treeMem manyBytes : Mem Tree.rules 8)).1 =
      [.ok (.out (.bool true)), .ok (.out (.bool false)), .ok (.out (.bool false)), .ok (.out .unit),
        .ok (.out (.bool true))] := by
  decide +kernel

/-- After its owner has written to the other string, it may not be given. -/
example : ∀ c ∈ [TextCall.tryFromStr, .parse, .fromStrTruncate, .from_, .tryPushStr, .pushStrTruncate, .tryInsertStr 0,
      .insertStrTruncate 0, .replaceRange (.range 0 1), .add, .writeStr, .eqStr],
    ((do
      store 2 9 [0x41]
      Machine.act 1 3 (.give c 9) : M (Mem Stacked.rules 8) Failure Told) (stackedMem manyBytes)).1 = .ub ∧
    ((do
      store 2 9 [0x41]
      Machine.act 1 3 (.give c 9) : M (Mem Tree.rules 8) Failure Told) (treeMem manyBytes)).1 = .ub ∧
    ((do
      store 2 64 [0x41]
      Machine.Cache.act 1 3 (.give c 64) : M (Mem Tree.rules 63) Failure Told) (treeMem cacheManyBytes)).1 = .ub := by
  decide +kernel

end Verif
