import Verif.Proofs.BorrowRun
import Verif.Props.History

/-!
# The aliasing rules are kept

C54.  `replace_range` copies bytes through a raw pointer while it keeps calling methods of `self`, and
`as_mut` builds the `&mut str` it returns with unsafe functions.  Under Stacked Borrows and under Tree
Borrows neither ever touches memory through a reference that is no longer allowed to.
-/

namespace Verif
open Spec Borrow

variable {N : Nat}

/-! ## What the caller has to bring -/

/-- The stack of a byte. -/
def stackAt (w : World Stacked.rules N) (l : Nat) : List Stacked.Item := w.mem l

/-- The references to a byte. -/
def nodesAt (w : World Tree.rules N) (l : Nat) : List Tree.Node := w.mem l

/-- Stacked Borrows, at some point of a program: `caller` may be written through on the `N` bytes and
the size of the string, `arg` may be read through on the bytes `N + 1 .. top`, where the text arguments
are, and the tags from `w.next` on have not been used. -/
def StackedReady (caller arg : Tag) (top : Nat) (w : World Stacked.rules N) : Prop :=
  (∀ l, l ≤ N → (Stacked.write caller (stackAt w l)).isSome ∧ ∀ i ∈ stackAt w l, i.tag < w.next) ∧
  ∀ l, N < l → l < top →
    (Stacked.read arg (stackAt w l)).isSome ∧ ∀ i ∈ stackAt w l, i.tag < w.next

/-- The same for Tree Borrows. -/
def TreeReady (caller arg : Tag) (top : Nat) (w : World Tree.rules N) : Prop :=
  (∀ l, l ≤ N → (Tree.write caller (nodesAt w l)).isSome ∧ ∀ x ∈ nodesAt w l, x.tag < w.next) ∧
  ∀ l, N < l → l < top →
    (Tree.read arg (nodesAt w l)).isSome ∧ ∀ x ∈ nodesAt w l, x.tag < w.next

theorem stackedReady_iff {caller arg top} {w : World Stacked.rules N} :
    StackedReady caller arg top w ↔ Ready Stacked.laws caller arg top w := by
  have : ∀ st : List Stacked.Item, (∀ i ∈ st, i.tag < w.next) ↔ Stacked.Below w.next st :=
    fun st => by simp [Stacked.Below, Stacked.tags]
  constructor
  · exact fun h => ⟨fun l hl => ⟨(h.1 l hl).1, (this _).1 (h.1 l hl).2⟩,
      fun l h1 h2 => ⟨(h.2 l h1 h2).1, (this _).1 (h.2 l h1 h2).2⟩⟩
  · exact fun h => ⟨fun l hl => ⟨(h.1 l hl).1, (this _).2 (h.1 l hl).2⟩,
      fun l h1 h2 => ⟨(h.2 l h1 h2).1, (this _).2 (h.2 l h1 h2).2⟩⟩

theorem treeReady_iff {caller arg top} {w : World Tree.rules N} :
    TreeReady caller arg top w ↔ Ready Tree.laws caller arg top w := by
  have : ∀ st : List Tree.Node, (∀ i ∈ st, i.tag < w.next) ↔ Tree.Below w.next st :=
    fun st => by simp [Tree.Below, Tree.tags]
  constructor
  · exact fun h => ⟨fun l hl => ⟨(h.1 l hl).1, (this _).1 (h.1 l hl).2⟩,
      fun l h1 h2 => ⟨(h.2 l h1 h2).1, (this _).1 (h.2 l h1 h2).2⟩⟩
  · exact fun h => ⟨fun l hl => ⟨(h.1 l hl).1, (this _).2 (h.1 l hl).2⟩,
      fun l h1 h2 => ⟨(h.2 l h1 h2).1, (this _).2 (h.2 l h1 h2).2⟩⟩

/-! ## Sequences of calls -/

/-- The call as a call on a text. -/
def Borrow.Call.op : Call → Op
  | .replaceRange r t => .replaceRange r t
  | .edit e => .asMutStr e
  | .text => .asStr

/-- Range bounds are `usize` values, and the text argument is in the memory set aside for it. -/
def Borrow.Call.Ok (N top : Nat) : Call → Prop
  | .replaceRange r t => RangeOk r ∧ N + 1 + byteLen t ≤ top
  | _ => True

section
variable {R : Rules} {L : Laws R} {caller arg : Tag} {top : Nat} {w : World R N} {cs : List Char}

theorem holds_edit {s : ArrayString N} (hs : Holds s cs) (e : Edit) :
    Holds (⟨e.onBytes (s.array.take s.len) ++ s.array.drop s.len, s.size⟩ : ArrayString N) (e.apply cs) := by
  have h : s.array.take s.len = utf8 cs := hs.2.2
  rw [h, onBytes_utf8, hs.len]
  exact (asMutStr_ok (ε := Error) (edit := e.onBytes) hs (onBytes_utf8 e cs) (e.keeps cs)).2

theorem borrow_call [ValidCapacity N] (h : Ready L caller arg top w) (htop : N < top) (hs : Holds w.str cs)
    (c : Call) (hc : c.Ok N top) :
    ∃ w', c.run caller arg w = ((step N c.op cs).1.toRes, w') ∧ Holds w'.str (step N c.op cs).2 ∧
      Ready L caller arg top w' := by
  have hlen : w.str.len ≤ N := hs.2.1
  cases c with
  | replaceRange r t =>
    obtain ⟨h1, h2⟩ := exec_step (.replaceRange r t) hc.1 w.str cs hs
    obtain ⟨w', e1, s1, g1⟩ := run_replaceRange (r := r) (str := utf8 t) h (by simpa using hc.2) ⟨hs.1, hlen⟩
    have he : ∀ r', r' = (ArrayString.replaceRange r (utf8 t) w.str).1 → ((∃ a, r' = .ok a) ∨ ∃ e, r' = .err e) →
        (Call.replaceRange r t).run caller arg w =
          ((exec (.replaceRange r t) w.str).1, w') ∧ w'.str = (exec (.replaceRange r t) w.str).2 := by
      intro r' hr hret
      show (M.mapErr _ (replaceRange caller arg r (utf8 t)) >>= _) w = (((call _ _) w.str).1, w') ∧
        w'.str = ((call _ _) w.str).2
      rcases hret with ⟨a, rfl⟩ | ⟨x, rfl⟩
      · have hp : ArrayString.replaceRange r (utf8 t) w.str = (.ok a, w'.str) := Prod.ext hr.symm s1.symm
        rw [call_ok hp]
        rw [← hr] at e1
        rw [bind_ok (m := M.mapErr _ (replaceRange caller arg r (utf8 t))) (a := a) (w' := w')
          (by simp only [M.mapErr, e1]; rfl)]
        exact ⟨rfl, rfl⟩
      · have hp : ArrayString.replaceRange r (utf8 t) w.str = (.err x, w'.str) := Prod.ext hr.symm s1.symm
        rw [call_err hp]
        rw [← hr] at e1
        rw [bind_err (m := M.mapErr _ (replaceRange caller arg r (utf8 t))) (e := _root_.Verif.Kind.kind x)
          (w' := w') (by simp only [M.mapErr, e1]; rfl)]
        exact ⟨rfl, rfl⟩
    have hret : (∃ a, (ArrayString.replaceRange r (utf8 t) w.str).1 = .ok a) ∨
        ∃ e, (ArrayString.replaceRange r (utf8 t) w.str).1 = .err e := by
      rcases replaceRange_total (hN := ValidCapacity.le) r t hs with ⟨s', cs', h, _⟩ | ⟨e, h⟩
      · exact .inl ⟨(), by rw [h]⟩
      · exact .inr ⟨e, by rw [h]⟩
    obtain ⟨e2, s2⟩ := he _ rfl hret
    exact ⟨w', by rw [e2, h1]; rfl, by rw [s2]; exact h2, (g1 (by
      rcases hret with ⟨_, h⟩ | ⟨_, h⟩ <;> rw [h] <;> exact ⟨nofun, nofun⟩)).1⟩
  | edit e =>
    obtain ⟨u, self, w1, T1, e1, s1, g1, _⟩ := run_asMut (ε := Failure) h htop hlen
    obtain ⟨w2, e2, s2, g2⟩ := Using.read (ε := Failure) (lo := 0) g1.using (Nat.le_refl _) (Nat.le_refl _) hlen
    obtain ⟨w3, e3, s3, g3⟩ := Using.write (ε := Failure) (lo := 0) g2 (Nat.le_refl _) (Nat.le_refl _) hlen
    refine ⟨{ w3 with str := ⟨e.onBytes (w3.str.array.take w.str.len) ++ w3.str.array.drop w.str.len, w3.str.size⟩ },
      ?_, ?_, Using.ready (g3.put _)⟩
    · show (asMut caller >>= _) w = _
      rw [bind_ok e1]
      simp only
      rw [bind_ok e2, bind_ok e3]
      rfl
    · simp only [s3, s2, s1]
      exact holds_edit hs e
  | text =>
    obtain ⟨w', e1, s1, g1⟩ := run_look (ε := Failure) h htop ⟨hs.1, hlen⟩
    refine ⟨w', ?_, by rw [s1]; exact hs, g1⟩
    show (look caller >>= _) w = _
    rw [bind_ok e1]
    show (Res.ok (Out.str (w'.str.array.take w.str.len)), w') = _
    rw [s1, show w.str.array.take w.str.len = utf8 cs from hs.2.2]
    rfl

theorem borrow_calls [ValidCapacity N] (h : Ready L caller arg top w) (htop : N < top) (hs : Holds w.str cs)
    (calls : List Call) (hc : ∀ c ∈ calls, c.Ok N top) :
    (runCalls caller arg calls w).1 = (steps N (calls.map Call.op) cs).1.map Answer.toRes ∧
    Holds (runCalls caller arg calls w).2.str (steps N (calls.map Call.op) cs).2 ∧
    Ready L caller arg top (runCalls caller arg calls w).2 := by
  induction calls generalizing w cs with
  | nil => exact ⟨rfl, hs, h⟩
  | cons c calls ih =>
    obtain ⟨w', e1, h1, h2⟩ := borrow_call h htop hs c (hc c List.mem_cons_self)
    obtain ⟨i1, i2, i3⟩ := ih h2 h1 (fun c h => hc c (List.mem_cons_of_mem _ h))
    simp only [runCalls, e1, List.map_cons, steps]
    exact ⟨by rw [i1], i2, i3⟩

end

/-- C54, Stacked Borrows: any sequence of `replace_range`, `as_mut_str` and `as_str` calls through a
`&mut ArrayString` that may be used gives the answers and the text it should, none of them undefined
behaviour, and leaves the references the caller brought usable. -/
theorem C54_stacked [ValidCapacity N] (caller arg : Tag) (top : Nat) (w : World Stacked.rules N)
    (cs : List Char) (calls : List Call) (htop : N < top) (h : StackedReady caller arg top w)
    (hs : Holds w.str cs) (hc : ∀ c ∈ calls, c.Ok N top) :
    (runCalls caller arg calls w).1 = (steps N (calls.map Call.op) cs).1.map Answer.toRes ∧
    Holds (runCalls caller arg calls w).2.str (steps N (calls.map Call.op) cs).2 ∧
    StackedReady caller arg top (runCalls caller arg calls w).2 := by
  rw [stackedReady_iff]
  exact borrow_calls (stackedReady_iff.1 h) htop hs calls hc

/-- C54, Tree Borrows. -/
theorem C54_tree [ValidCapacity N] (caller arg : Tag) (top : Nat) (w : World Tree.rules N)
    (cs : List Char) (calls : List Call) (htop : N < top) (h : TreeReady caller arg top w)
    (hs : Holds w.str cs) (hc : ∀ c ∈ calls, c.Ok N top) :
    (runCalls caller arg calls w).1 = (steps N (calls.map Call.op) cs).1.map Answer.toRes ∧
    Holds (runCalls caller arg calls w).2.str (steps N (calls.map Call.op) cs).2 ∧
    TreeReady caller arg top (runCalls caller arg calls w).2 := by
  rw [treeReady_iff]
  exact borrow_calls (treeReady_iff.1 h) htop hs calls hc

/-- C54, Stacked Borrows, for one call of `replace_range` with any bytes on any string, valid or not:
following the rules changes nothing. -/
theorem C54_replace_range_stacked [ValidCapacity N] (caller arg : Tag) (top : Nat) (w : World Stacked.rules N)
    (r : RangeB) (str : Bytes) (htop : N + 1 + str.length ≤ top) (h : StackedReady caller arg top w)
    (hlen : w.str.array.length = N) (hl : w.str.size.toNat ≤ N) :
    ∃ w', replaceRange caller arg r str w = ((ArrayString.replaceRange r str w.str).1, w') ∧
      w'.str = (ArrayString.replaceRange r str w.str).2 ∧
      ((ArrayString.replaceRange r str w.str).1 ≠ .ub → (ArrayString.replaceRange r str w.str).1 ≠ .diverge →
        StackedReady caller arg top w') := by
  obtain ⟨w', e1, s1, g1⟩ := run_replaceRange (r := r) (str := str) (stackedReady_iff.1 h) htop ⟨hlen, hl⟩
  exact ⟨w', e1, s1, fun h1 h2 => stackedReady_iff.2 (g1 ⟨h1, h2⟩).1⟩

/-- C54, Tree Borrows, for one call of `replace_range`. -/
theorem C54_replace_range_tree [ValidCapacity N] (caller arg : Tag) (top : Nat) (w : World Tree.rules N)
    (r : RangeB) (str : Bytes) (htop : N + 1 + str.length ≤ top) (h : TreeReady caller arg top w)
    (hlen : w.str.array.length = N) (hl : w.str.size.toNat ≤ N) :
    ∃ w', replaceRange caller arg r str w = ((ArrayString.replaceRange r str w.str).1, w') ∧
      w'.str = (ArrayString.replaceRange r str w.str).2 ∧
      ((ArrayString.replaceRange r str w.str).1 ≠ .ub → (ArrayString.replaceRange r str w.str).1 ≠ .diverge →
        TreeReady caller arg top w') := by
  obtain ⟨w', e1, s1, g1⟩ := run_replaceRange (r := r) (str := str) (treeReady_iff.1 h) htop ⟨hlen, hl⟩
  exact ⟨w', e1, s1, fun h1 h2 => treeReady_iff.2 (g1 ⟨h1, h2⟩).1⟩

theorem borrow_asMut {R : Rules} {L : Laws R} {caller arg : Tag} {top : Nat} {w : World R N}
    (h : Ready L caller arg top w) (htop : N < top) (hl : w.str.len ≤ N) (as : List Access)
    (has : ∀ a ∈ as, a.pos < w.str.len) :
    ∃ u w₁ w', (asMut caller : M (World R N) Error (Tag × Nat)) w = (.ok (u, w.str.len), w₁) ∧
      (runAccesses u as : M (World R N) Error Unit) w₁ = (.ok (), w') ∧
      w'.str = ⟨stored w.str.array as, w.str.size⟩ ∧ Ready L caller arg top w' := by
  obtain ⟨u, self, w1, T1, e1, s1, g1, _⟩ := run_asMut (ε := Error) h htop hl
  obtain ⟨w2, e2, s2, g2⟩ := run_accesses (ε := Error) g1.using hl has
  exact ⟨u, w1, w2, e1, e2, by rw [s2, s1], Using.ready g2⟩

/-- C54, Stacked Borrows: the reference returned by `as_mut` may be read and written through any
number of times, in any order, at any place of the text; then `caller` may be used again. -/
theorem C54_as_mut_stacked (caller arg : Tag) (top : Nat) (w : World Stacked.rules N) (as : List Access)
    (htop : N < top) (h : StackedReady caller arg top w) (hl : w.str.size.toNat ≤ N)
    (has : ∀ a ∈ as, a.pos < w.str.size.toNat) :
    ∃ u w₁ w', (asMut caller : M _ Error (Tag × Nat)) w = (.ok (u, w.str.size.toNat), w₁) ∧
      (runAccesses u as : M _ Error Unit) w₁ = (.ok (), w') ∧
      w'.str = ⟨stored w.str.array as, w.str.size⟩ ∧ StackedReady caller arg top w' := by
  obtain ⟨u, w1, w2, e1, e2, s2, g2⟩ := borrow_asMut (stackedReady_iff.1 h) htop hl as has
  exact ⟨u, w1, w2, e1, e2, s2, stackedReady_iff.2 g2⟩

/-- C54, Tree Borrows, for `as_mut`. -/
theorem C54_as_mut_tree (caller arg : Tag) (top : Nat) (w : World Tree.rules N) (as : List Access)
    (htop : N < top) (h : TreeReady caller arg top w) (hl : w.str.size.toNat ≤ N)
    (has : ∀ a ∈ as, a.pos < w.str.size.toNat) :
    ∃ u w₁ w', (asMut caller : M _ Error (Tag × Nat)) w = (.ok (u, w.str.size.toNat), w₁) ∧
      (runAccesses u as : M _ Error Unit) w₁ = (.ok (), w') ∧
      w'.str = ⟨stored w.str.array as, w.str.size⟩ ∧ TreeReady caller arg top w' := by
  obtain ⟨u, w1, w2, e1, e2, s2, g2⟩ := borrow_asMut (treeReady_iff.1 h) htop hl as has
  exact ⟨u, w1, w2, e1, e2, s2, treeReady_iff.2 g2⟩

theorem touch_ub {R : Rules} {f : R.St → Option R.St} {l : Nat} {w : World R N} (h : f (w.mem l) = none) :
    (touch l (l + 1) f : M (World R N) Error Unit) w = (.ub, w) := by
  unfold touch
  rw [if_neg]
  rw [List.all_eq_true]
  intro hall
  have := hall l (by rw [List.mem_range'_1]; omega)
  rw [h] at this
  cases this

/-- C54, Stacked Borrows: the reference returned by `as_mut` may be used nowhere else.  Reading or
writing a byte of the array past the text, or the size (at `N`), through it is undefined behaviour. -/
theorem C54_as_mut_only_stacked (caller arg : Tag) (top : Nat) (w : World Stacked.rules N)
    (htop : N < top) (h : StackedReady caller arg top w) (hl : w.str.size.toNat ≤ N) :
    ∃ u w₁, (asMut caller : M _ Error (Tag × Nat)) w = (.ok (u, w.str.size.toNat), w₁) ∧
      ∀ l, w.str.size.toNat ≤ l → l ≤ N →
        (readAt u l (l + 1) : M _ Error Unit) w₁ = (.ub, w₁) ∧
        (writeAt u l (l + 1) : M _ Error Unit) w₁ = (.ub, w₁) := by
  obtain ⟨u, self, w1, T1, e1, s1, g1, b1⟩ := run_asMut (ε := Error) (stackedReady_iff.1 h) htop hl
  exact ⟨u, w1, e1, fun l h1 h2 => ⟨touch_ub (Stacked.below_read_none (b1 l h1 h2)),
    touch_ub (Stacked.below_write_none (b1 l h1 h2))⟩⟩

/-! ## From the start of a program -/

/-- Stacked Borrows, after `let mut s = ..; let r = &mut s;` (tags 0 and 1), with a text argument owned
by tag 2 and borrowed as tag 3. -/
def stackedStart (s : ArrayString N) : World Stacked.rules N where
  str := s
  mem l := if l ≤ N then [⟨1, .unique, false⟩, ⟨0, .unique, false⟩]
    else [⟨3, .sharedRO, false⟩, ⟨2, .unique, false⟩]
  next := 4

/-- The same for Tree Borrows. -/
def treeStart (s : ArrayString N) : World Tree.rules N where
  str := s
  mem l := if l ≤ N then [⟨1, 0, .reserved false, false⟩, ⟨0, 0, .active, false⟩]
    else [⟨3, 2, .frozen, false⟩, ⟨2, 2, .active, false⟩]
  next := 4

theorem stackedStart_ready (s : ArrayString N) (top : Nat) : StackedReady 1 3 top (stackedStart s) := by
  refine ⟨fun l hl => ?_, fun l hl _ => ?_⟩
  · rw [show stackAt (stackedStart s) l = _ from if_pos hl]
    show _ ∧ ∀ i ∈ (_ : List Stacked.Item), i.tag < 4
    decide
  · rw [show stackAt (stackedStart s) l = _ from if_neg (show ¬ l ≤ N by omega)]
    show _ ∧ ∀ i ∈ (_ : List Stacked.Item), i.tag < 4
    decide

theorem treeStart_ready (s : ArrayString N) (top : Nat) : TreeReady 1 3 top (treeStart s) := by
  refine ⟨fun l hl => ?_, fun l hl _ => ?_⟩
  · rw [show nodesAt (treeStart s) l = _ from if_pos hl]
    show _ ∧ ∀ i ∈ (_ : List Tree.Node), i.tag < 4
    decide
  · rw [show nodesAt (treeStart s) l = _ from if_neg (show ¬ l ≤ N by omega)]
    show _ ∧ ∀ i ∈ (_ : List Tree.Node), i.tag < 4
    decide

theorem exists_top (N : Nat) (calls : List Call) (hc : ∀ c ∈ calls, c.op.Ok) :
    ∃ top, N < top ∧ ∀ c ∈ calls, c.Ok N top := by
  induction calls with
  | nil => exact ⟨N + 1, by omega, by simp⟩
  | cons c calls ih =>
    obtain ⟨top, h1, h2⟩ := ih (fun c h => hc c (List.mem_cons_of_mem _ h))
    have mono : ∀ c : Call, ∀ t, top ≤ t → c.Ok N top → c.Ok N t := by
      intro c t ht h
      cases c with
      | replaceRange r t => exact ⟨h.1, Nat.le_trans h.2 ht⟩
      | edit => trivial
      | text => trivial
    have h3 := hc c List.mem_cons_self
    obtain ⟨t, ht, h4⟩ : ∃ t, top ≤ t ∧ c.Ok N t := by
      cases c with
      | replaceRange r t => exact ⟨max top (N + 1 + byteLen t), by omega, h3, by omega⟩
      | edit => exact ⟨top, by omega, trivial⟩
      | text => exact ⟨top, by omega, trivial⟩
    refine ⟨t, by omega, fun d hd => ?_⟩
    rcases List.mem_cons.1 hd with rfl | hd
    · exact h4
    · exact mono d t ht (h2 d hd)

/-- C54: a program that owns a string, borrows it once and makes any sequence of calls through the
borrow has no undefined behaviour under either set of rules, and the answers are those of C03. -/
theorem C54_program [ValidCapacity N] (s : ArrayString N) (cs : List Char) (calls : List Call)
    (hs : Holds s cs) (hc : ∀ c ∈ calls, c.op.Ok) :
    (runCalls 1 3 calls (stackedStart s)).1 = (steps N (calls.map Call.op) cs).1.map Answer.toRes ∧
    (runCalls 1 3 calls (treeStart s)).1 = (steps N (calls.map Call.op) cs).1.map Answer.toRes ∧
    Res.ub ∉ (runCalls 1 3 calls (stackedStart s)).1 ∧ Res.ub ∉ (runCalls 1 3 calls (treeStart s)).1 := by
  obtain ⟨top, h1, h2⟩ := exists_top N calls hc
  have e1 := (C54_stacked 1 3 top (stackedStart s) cs calls h1 (stackedStart_ready s top) hs h2).1
  have e2 := (C54_tree 1 3 top (treeStart s) cs calls h1 (treeStart_ready s top) hs h2).1
  have hub : Res.ub ∉ (steps N (calls.map Call.op) cs).1.map Answer.toRes := by
    intro h
    obtain ⟨a, _, ha⟩ := List.mem_map.1 h
    cases a <;> cases ha
  exact ⟨e1, e2, by rw [e1]; exact hub, by rw [e2]; exact hub⟩

theorem byteLen_rev (cs : List Char) : byteLen cs.reverse = byteLen cs := by
  induction cs with
  | nil => rfl
  | cons c cs ih => rw [List.reverse_cons, byteLen_append, ih, byteLen_cons, byteLen_cons]; simp; omega

/-- Calls that insert, overwrite, edit, fail, delete and look. -/
def sampleCalls : List Call :=
  [.replaceRange (.range 1 3) ['x'], .text, .edit ⟨List.reverse, byteLen_rev⟩,
    .replaceRange (.range 0 0) ['é', 'y'], .replaceRange (.range 1 2) ['z'], .replaceRange (.range 4 6) ['!'],
    .replaceRange (.range 2 2) ['€', '€'], .text]

/-- The hypotheses of the theorems above hold for them, from `sample` ("hé "). -/
example : Holds (stackedStart sample).str ['h', 'é', ' '] ∧ Holds (treeStart sample).str ['h', 'é', ' '] ∧
    StackedReady 1 3 20 (stackedStart sample) ∧ TreeReady 1 3 20 (treeStart sample) ∧
    8 + 1 + byteLen ['€', '€'] ≤ 20 ∧
    steps 8 (sampleCalls.map Call.op) ['h', 'é', ' '] =
      ([.returned .unit, .returned (.str (utf8 ['h', 'x', ' '])), .returned .unit, .returned .unit,
        .failed .utf8, .returned .unit, .failed .outOfBounds, .returned (.str (utf8 ['é', 'y', ' ', '!']))],
        ['é', 'y', ' ', '!']) :=
  ⟨sample_holds, sample_holds, stackedStart_ready _ _, treeStart_ready _ _, by decide, by decide⟩

example : ∀ a ∈ [Access.load 0, .store 0 72, .load 1, .store 3 33, .load 3], a.pos < sample.size.toNat := by
  decide

/-- For `C54_as_mut_only_stacked`: "hé " has 4 bytes, so the byte at 4 is outside. -/
example : StackedReady 1 3 20 (stackedStart sample) ∧ sample.size.toNat ≤ 4 ∧ 4 ≤ 8 :=
  ⟨stackedStart_ready _ _, by decide, by decide⟩

/-! ## Tests: the rules do forbid something -/

/-- Using a reference between making a pointer from it and using the pointer is undefined behaviour. -/
example : ((do
      let p ← asMutPtr 1
      writeAt 1 0 1
      readAt p 0 1 : M (World Stacked.rules 8) Error Unit) (stackedStart sample)).1 = .ub ∧
    ((do
      let p ← asMutPtr 1
      writeAt 1 0 1
      readAt p 0 1 : M (World Tree.rules 8) Error Unit) (treeStart sample)).1 = .ub := by decide

/-- Calling `len` between two writes through the pointer to the same byte would be undefined behaviour
under Tree Borrows (not under Stacked Borrows).  `replace_range` calls it before the first write. -/
example : ((do
      let p ← asMutPtr 1
      writeAt p 0 1
      let _ ← len 1
      writeAt p 0 1 : M (World Stacked.rules 8) Error Unit) (stackedStart sample)).1 = .ok () ∧
    ((do
      let p ← asMutPtr 1
      writeAt p 0 1
      let _ ← len 1
      writeAt p 0 1 : M (World Tree.rules 8) Error Unit) (treeStart sample)).1 = .ub := by decide

/-- The reference returned by `as_mut` ends when `caller` is used. -/
example : ((do
      let (u, _) ← asMut 1
      writeAt 1 0 1
      readAt u 0 1 : M (World Stacked.rules 8) Error Unit) (stackedStart sample)).1 = .ub ∧
    ((do
      let (u, _) ← asMut 1
      writeAt 1 0 1
      readAt u 0 1 : M (World Tree.rules 8) Error Unit) (treeStart sample)).1 = .ub := by decide

/-- Under Stacked Borrows the bytes past the length are not covered by it.  (Nothing is claimed for Tree
Borrows, where the real rules allow a reference to be used outside the range it was made for.) -/
example : ((do
      let (u, _) ← asMut 1
      readAt u 4 5 : M (World Stacked.rules 8) Error Unit) (stackedStart sample)).1 = .ub := by decide

/-- A text argument inside the string itself (which safe code cannot pass) would be undefined
behaviour: the text is read through a reference that the `&mut self` has ended. -/
example : ((do
      let t ← retagShared 1 0 4 false
      let _ ← retagUnique 1 0 9 true
      readAt t 0 1 : M (World Stacked.rules 8) Error Unit) (stackedStart sample)).1 = .ub := by decide

end Verif
