import Verif.Proofs.MachineChars
import Verif.Props.Machine

/-!
# The characters, one byte at a time

C71.  The calls of C66 with `pop`, `trim`, `remove`, `retain` and the iterator of `drain` decoding the text as `core` does, one
byte after the other, from whichever end: the same answers, the same text, no undefined behaviour, neither from the
accesses nor from the unchecked steps of the decoder.  And where they look: `pop` at the bytes of the last character,
`remove` at those of the character it removes, `trim` at the white space and the two characters next to it.
-/

namespace Verif.Machine
open Spec
open Borrow (Rules Tag World Laws Ready Settled texts Text)

variable {N : Nat}

section
variable {R : Rules} {L : Laws R} {caller arg : Tag} {top : Nat} {m : Mem R N} {cs : List Char}

theorem chars_op [ValidCapacity N] (h : Ready L caller arg top (abs m)) (htop : N < top) (hs : Holds m.str cs)
    (op : Op) (hop : op.Ok) (ht : ∀ t ∈ texts op, N + 1 + byteLen t ≤ top) :
    (Chars.exec caller arg op m).1 = (step N op cs).1.toRes ∧
      Holds (Chars.exec caller arg op m).2.str (step N op cs).2 ∧
      Ready L caller arg top (abs (Chars.exec caller arg op m).2) ∧
      (∀ l, top ≤ l → (Chars.exec caller arg op m).2.bytes l = m.bytes l) := by
  obtain ⟨w', e1, s1, g1⟩ := Borrow.Ready.of_sim (Borrow.sim_chars_exec (caller := caller) (op := op) (h.state htop)
    (show Borrow.Shape (abs m).str from ⟨hs.1, hs.2.1⟩)
    (fun t h => by rw [length_utf8]; exact ht t h) (fun _ _ _ => Or.inl rfl)
    rfl rfl)
  obtain ⟨h1, h2⟩ := exec_step op hop m.str cs hs
  have hr : Settled (Verif.exec op m.str).1 := by
    rw [h1]
    exact toRes_ne _
  obtain ⟨m', k1, k2, k3, k4⟩ := sim_chars_exec (caller := caller) (arg := arg) (op := op) (K := top - N - 1)
    (show Valid N m.bytes from ⟨cs, hs⟩) (fun t h => by have := ht t h; omega) m rfl _ _ e1 hr
  rw [k1]
  dsimp only
  refine ⟨h1, ?_, ?_, fun l hl => k4 l (by omega)⟩
  · have k6 : m'.str = (Verif.exec op m.str).2 := (congrArg World.str k2).trans s1
    rwa [k6]
  · rw [k2]
    exact (g1 hr).1

theorem chars_ops [ValidCapacity N] (h : Ready L caller arg top (abs m)) (htop : N < top) (hs : Holds m.str cs)
    (ops : List Op) (hops : ∀ op ∈ ops, op.Ok) (ht : ∀ op ∈ ops, ∀ t ∈ texts op, N + 1 + byteLen t ≤ top) :
    (Chars.runOps caller arg ops m).1 = (steps N ops cs).1.map Answer.toRes ∧
    Holds (Chars.runOps caller arg ops m).2.str (steps N ops cs).2 ∧
    Ready L caller arg top (abs (Chars.runOps caller arg ops m).2) ∧
    (∀ l, top ≤ l → (Chars.runOps caller arg ops m).2.bytes l = m.bytes l) := by
  induction ops generalizing m cs with
  | nil => exact ⟨rfl, hs, h, fun _ _ => rfl⟩
  | cons op ops ih =>
    obtain ⟨e1, h1, g1, f1⟩ := chars_op h htop hs op (hops op List.mem_cons_self) (ht op List.mem_cons_self)
    obtain ⟨i1, i2, i3, i4⟩ := ih g1 h1 (fun op h => hops op (List.mem_cons_of_mem _ h))
      (fun op h => ht op (List.mem_cons_of_mem _ h))
    simp only [Chars.runOps, steps, List.map_cons]
    exact ⟨by rw [i1, e1], i2, i3, fun l hl => (i4 l hl).trans (f1 l hl)⟩

end

end Verif.Machine

namespace Verif
open Spec Borrow
open Machine (Mem Stores abs stores_iff Scan)

variable {N : Nat}

/-- C71, Stacked Borrows: from memory that stores a text, any history of calls, with the characters decoded byte by
byte, gives the answers of C03, stores the text of C03, has no undefined behaviour, and leaves the references of the
caller usable; also when calls fail or panic.  Beyond the string and the texts of the calls no byte has changed. -/
theorem C71_stacked [ValidCapacity N] (caller arg : Tag) (top : Nat) (m : Mem Stacked.rules N)
    (cs : List Char) (ops : List Op) (htop : N < top) (h : StackedReady caller arg top (abs m))
    (hs : Stores m cs) (hops : ∀ op ∈ ops, op.Ok)
    (ht : ∀ op ∈ ops, ∀ t ∈ texts op, N + 1 + byteLen t ≤ top) :
    (Machine.Chars.runOps caller arg ops m).1 = (steps N ops cs).1.map Answer.toRes ∧
    Res.ub ∉ (Machine.Chars.runOps caller arg ops m).1 ∧
    Stores (Machine.Chars.runOps caller arg ops m).2 (steps N ops cs).2 ∧
    StackedReady caller arg top (abs (Machine.Chars.runOps caller arg ops m).2) ∧
    (∀ l, top ≤ l → (Machine.Chars.runOps caller arg ops m).2.bytes l = m.bytes l) := by
  rw [stackedReady_iff, stores_iff]
  obtain ⟨h1, h2⟩ := Machine.chars_ops (stackedReady_iff.1 h) htop (stores_iff.1 hs) ops hops ht
  refine ⟨h1, fun hu => ?_, h2⟩
  rw [h1] at hu
  obtain ⟨a, _, ha⟩ := List.mem_map.1 hu
  exact (toRes_ne a).1 ha

/-- C71, Tree Borrows. -/
theorem C71_tree [ValidCapacity N] (caller arg : Tag) (top : Nat) (m : Mem Tree.rules N)
    (cs : List Char) (ops : List Op) (htop : N < top) (h : TreeReady caller arg top (abs m))
    (hs : Stores m cs) (hops : ∀ op ∈ ops, op.Ok)
    (ht : ∀ op ∈ ops, ∀ t ∈ texts op, N + 1 + byteLen t ≤ top) :
    (Machine.Chars.runOps caller arg ops m).1 = (steps N ops cs).1.map Answer.toRes ∧
    Res.ub ∉ (Machine.Chars.runOps caller arg ops m).1 ∧
    Stores (Machine.Chars.runOps caller arg ops m).2 (steps N ops cs).2 ∧
    TreeReady caller arg top (abs (Machine.Chars.runOps caller arg ops m).2) ∧
    (∀ l, top ≤ l → (Machine.Chars.runOps caller arg ops m).2.bytes l = m.bytes l) := by
  rw [treeReady_iff, stores_iff]
  obtain ⟨h1, h2⟩ := Machine.chars_ops (treeReady_iff.1 h) htop (stores_iff.1 hs) ops hops ht
  refine ⟨h1, fun hu => ?_, h2⟩
  rw [h1] at hu
  obtain ⟨a, _, ha⟩ := List.mem_map.1 hu
  exact (toRes_ne a).1 ha

/-- C71, Tree Borrows as in Miri (C62). -/
theorem C71_outer [ValidCapacity N] (caller arg : Tag) (top : Nat) (m : Mem Tree.rulesOuter N)
    (cs : List Char) (ops : List Op) (htop : N < top) (h : OuterReady caller arg top (abs m))
    (hs : Stores m cs) (hops : ∀ op ∈ ops, op.Ok)
    (ht : ∀ op ∈ ops, ∀ t ∈ texts op, N + 1 + byteLen t ≤ top) :
    (Machine.Chars.runOps caller arg ops m).1 = (steps N ops cs).1.map Answer.toRes ∧
    Res.ub ∉ (Machine.Chars.runOps caller arg ops m).1 ∧
    Stores (Machine.Chars.runOps caller arg ops m).2 (steps N ops cs).2 ∧
    OuterReady caller arg top (abs (Machine.Chars.runOps caller arg ops m).2) ∧
    (∀ l, top ≤ l → (Machine.Chars.runOps caller arg ops m).2.bytes l = m.bytes l) := by
  rw [outerReady_iff, stores_iff]
  obtain ⟨h1, h2⟩ := Machine.chars_ops (outerReady_iff.1 h) htop (stores_iff.1 hs) ops hops ht
  refine ⟨h1, fun hu => ?_, h2⟩
  rw [h1] at hu
  obtain ⟨a, _, ha⟩ := List.mem_map.1 hu
  exact (toRes_ne a).1 ha

/-- The bytes from `lo` to `hi` are the UTF-8 of `cs`. -/
def Spans (g : Nat → UInt8) (lo hi : Nat) (cs : List Char) : Prop :=
  hi = lo + byteLen cs ∧ ∀ i, i < byteLen cs → (utf8 cs)[i]? = some (g (lo + i))

theorem Spans.slice {g : Nat → UInt8} {lo hi : Nat} {cs : List Char} (h : Spans g lo hi cs) :
    Machine.sliceOf g lo (hi - lo) = utf8 cs := by
  obtain ⟨rfl, h⟩ := h
  refine List.ext_getElem? fun i => ?_
  rw [Machine.sliceOf_getElem?]
  split
  · rw [h i (by omega)]
  · rw [List.getElem?_eq_none (by rw [length_utf8]; omega)]

/-- C71: the scan of `pop` asks for the bytes of the last character, from the last one on, and no others. -/
theorem C71_pop_asked (g : Nat → UInt8) (n : Nat) (cs : List Char) (c : Char) (h : Spans g 0 n (cs ++ [c])) :
    (Scan.last 0 n).asked g = (List.range' (byteLen cs) c.utf8Size).reverse := by
  have := Scan.asked_last (lo := 0) h.slice
  rwa [Nat.zero_add] at this

/-- C71: `next` on a text asks for the bytes of its first character, in order, and no others; so does each turn of
`retain`. -/
theorem C71_next_asked (g : Nat → UInt8) (lo hi : Nat) (c : Char) (rest : List Char) (h : Spans g lo hi (c :: rest)) :
    (Scan.next lo hi).asked g = List.range' lo c.utf8Size := by
  rw [Scan.asked_next (Nat.le_refl _) (Nat.le_refl _)
    (Scan.next_text (a := lo) (b := hi) (Nat.le_refl _) (Nat.le_refl _) h.slice).1]
  congr 1
  omega

/-- C71: where there is no text nothing is asked for, and nothing found. -/
theorem C71_empty_asked {R : Rules} {ε : Type} (g : Nat → UInt8) (t : Tag) (m : Mem R N) (lo start stop : Nat) :
    (Scan.last lo lo).asked g = [] ∧ (Scan.next lo lo).asked g = [] ∧ (Scan.trimStart start 0 0 0).asked g = [] ∧
    (Scan.trimEnd start 0 stop 0).asked g = [] ∧
    (Machine.scan t (Scan.last lo lo) : M (Mem R N) ε _) m = (.ok none, m) ∧
    (Machine.scan t (Scan.next lo lo) : M (Mem R N) ε _) m = (.ok (none, lo), m) := by
  have h1 : Scan.next lo lo = .done (none, lo) := by
    unfold Scan.next Scan.nextCodePoint
    rw [if_neg (Nat.lt_irrefl _)]
    rfl
  have h2 : Scan.last lo lo = .done none := by
    unfold Scan.last Scan.nextBack Scan.nextCodePointReverse
    rw [if_neg (Nat.lt_irrefl _)]
    rfl
  rw [h1, h2]
  exact ⟨rfl, rfl, rfl, rfl, rfl, rfl⟩

/-- C71: the scan of `remove` asks for the bytes of the character that it removes, in order, and no others. -/
theorem C71_remove_asked (g : Nat → UInt8) (idx stop : Nat) (c : Char) (h : Spans g idx stop [c]) :
    (Scan.next idx stop).asked g = List.range' idx c.utf8Size :=
  C71_next_asked g idx stop c [] h

/-- C71: of a text that begins with the white space `ws` and then `c`, the first scan of `trim` asks for the bytes of
these and no others; the second one, of a text that ends with `c` and the white space `ws`, likewise, beginning at
the end. -/
theorem C71_trim_asked (g : Nat → UInt8) (n start stop : Nat) (ws rest : List Char) (c : Char)
    (hw : ∀ x ∈ ws, Str.isWhitespace x = true) (hc : Str.isWhitespace c = false) :
    (Spans g 0 n (ws ++ c :: rest) →
      (Scan.trimStart start n n 0).asked g = List.range' 0 (byteLen ws + c.utf8Size)) ∧
    (Spans g 0 n (rest ++ c :: ws) → start ≤ byteLen rest →
      (Scan.trimEnd start n stop n).asked g = (List.range' (byteLen rest) (c.utf8Size + byteLen ws)).reverse) := by
  have hl := length_le_byteLen ws
  have hp := utf8Size_pos c
  refine ⟨fun h => ?_, fun h hr => ?_⟩
  · exact Scan.asked_trimStart hw hc (by have := h.1; simp at this; omega) h.slice
  · exact Scan.asked_trimEnd hw hc hr (by have := h.1; simp at this; omega) h.slice

/-- C71: of white space alone, the first scan of `trim` asks for every byte, once and in order; the second one, which is
told that nothing begins before the end, for those of the last character only. -/
theorem C71_trim_blank_asked (g : Nat → UInt8) (n start stop : Nat) (ws : List Char)
    (hw : ∀ x ∈ ws, Str.isWhitespace x = true) (h : Spans g 0 n ws) :
    (Scan.trimStart start n n 0).asked g = List.range' 0 n ∧
    ∀ rest c, ws = rest ++ [c] →
      (Scan.trimEnd n n stop n).asked g = (List.range' (byteLen rest) c.utf8Size).reverse := by
  have hl := length_le_byteLen ws
  have hn : n = byteLen ws := by have := h.1; omega
  refine ⟨?_, fun rest c e => ?_⟩
  · rw [Scan.asked_trimStart_blank hw (by omega) (Nat.zero_le _) h.slice, hn]
  · subst e
    have hp := utf8Size_pos c
    simp at hn
    exact Scan.asked_trimEnd_blank (by omega) (by omega) h.slice

/-- C71: a scan changes no byte, and no tag of a byte that it does not ask for, whatever the bytes are. -/
theorem C71_leaves {R : Rules} {ε α : Type} (t : Tag) (sc : Scan α) (m : Mem R N) :
    ((Machine.scan t sc : M (Mem R N) ε α) m).2.bytes = m.bytes ∧
    ∀ l, l ∉ sc.asked m.bytes → ((Machine.scan t sc : M (Mem R N) ε α) m).2.mem l = m.mem l :=
  Machine.scan_leaves

/-- C71: what a scan finds, and what it does to the tags, depends on the bytes only where it asks. -/
theorem C71_blind {R : Rules} {ε α : Type} (t : Tag) (sc : Scan α) (m m' : Mem R N) (hmem : m'.mem = m.mem)
    (hnext : m'.next = m.next) (h : ∀ l ∈ sc.asked m.bytes, m'.bytes l = m.bytes l) :
    ((Machine.scan t sc : M (Mem R N) ε α) m').1 = ((Machine.scan t sc : M (Mem R N) ε α) m).1 ∧
    ((Machine.scan t sc : M (Mem R N) ε α) m').2.mem = ((Machine.scan t sc : M (Mem R N) ε α) m).2.mem := by
  obtain ⟨g', _, _⟩ := m'
  subst hmem hnext
  have := Machine.scan_blind (ε := ε) (t := t) h
  unfold Machine.Blind at this
  dsimp only at this
  rw [this]
  exact ⟨rfl, rfl⟩

/-- C71: so `pop` finds the last character of a text, and `next` the first one, whatever the other bytes are, be they
UTF-8 or not. -/
theorem C71_only {R : Rules} {ε : Type} (t : Tag) (m m' : Mem R N) (hmem : m'.mem = m.mem) (hnext : m'.next = m.next)
    (n : Nat) (cs : List Char) (c : Char) :
    (Spans m.bytes 0 n (cs ++ [c]) → (∀ l, byteLen cs ≤ l → l < n → m'.bytes l = m.bytes l) →
      ((Machine.scan t (Scan.last 0 n) : M (Mem R N) ε _) m').1 = ((Machine.scan t (Scan.last 0 n)) m).1) ∧
    ∀ lo hi, Spans m.bytes lo hi (c :: cs) → (∀ l, lo ≤ l → l < lo + c.utf8Size → m'.bytes l = m.bytes l) →
      ((Machine.scan t (Scan.next lo hi) : M (Mem R N) ε _) m').1 = ((Machine.scan t (Scan.next lo hi)) m).1 := by
  refine ⟨fun h hl => (C71_blind t _ m m' hmem hnext fun l hm => ?_).1,
    fun lo hi h hl => (C71_blind t _ m m' hmem hnext fun l hm => ?_).1⟩
  · have hn := h.1
    rw [C71_pop_asked _ n cs c h, List.mem_reverse, List.mem_range'_1] at hm
    simp at hn
    exact hl l hm.1 (by omega)
  · rw [C71_next_asked _ lo hi c cs h, List.mem_range'_1] at hm
    exact hl l hm.1 hm.2

/-! ## Examples -/

/-- Memory of capacity 8 that stores " é€ ", `0xFF` elsewhere. -/
def charBytes (l : Nat) : UInt8 :=
  if l = 8 then 7 else ([0x20, 0xC3, 0xA9, 0xE2, 0x82, 0xAC, 0x20][l]?).getD 0xFF

/-- Calls of the methods above: from both ends, in the middle, inside a character and too far. -/
def charOps : List Op :=
  [.trim, .remove 1, .retain fun seen _ => if seen.length = 1 then none else some true,
    .retain fun seen _ => some (seen.length ≤ 1), .remove 2, .pop, .tryPush '€', .remove 0, .remove 9,
    .drain .full [.back, .front, .front], .pop, .trim, .asStr]

/-- The hypotheses of the theorems hold of them. -/
example : Stores (stackedMem charBytes : Mem Stacked.rules 8) [' ', 'é', '€', ' '] ∧
    Stores (treeMem charBytes : Mem Tree.rules 8) [' ', 'é', '€', ' '] ∧
    StackedReady 1 3 20 (abs (stackedMem charBytes : Mem Stacked.rules 8)) ∧
    TreeReady 1 3 20 (abs (treeMem charBytes : Mem Tree.rules 8)) ∧
    OuterReady 1 3 20 (abs (⟨charBytes, (treeMem charBytes : Mem Tree.rules 8).mem, 4⟩ : Mem Tree.rulesOuter 8)) ∧
    (∀ op ∈ charOps, op.Ok) ∧ (∀ op ∈ charOps, ∀ t ∈ texts op, 8 + 1 + byteLen t ≤ 20) :=
  ⟨⟨by decide, by decide, by decide⟩, ⟨by decide, by decide, by decide⟩, stackedMem_ready _ _, treeMem_ready _ _,
    treeMem_ready (N := 8) charBytes 20,
    by simp [charOps, Op.Ok, RangeOk], by decide⟩

example : Spans charBytes 0 7 ([' ', 'é', '€'] ++ [' ']) ∧ Spans charBytes 0 6 ([' ', 'é'] ++ ['€']) ∧
    Spans charBytes 1 3 ['é'] ∧ Spans charBytes 1 7 ('é' :: ['€', ' ']) ∧ Spans charBytes 0 7 ([' '] ++ 'é' :: ['€', ' ']) ∧
    Spans charBytes 0 7 ([' ', 'é'] ++ '€' :: [' ']) ∧ Str.isWhitespace ' ' = true ∧ Str.isWhitespace 'é' = false ∧
    Str.isWhitespace '€' = false ∧ 1 ≤ byteLen [' ', 'é'] := by
  unfold Spans
  decide

/-- Of `C71_trim_blank_asked`: a space, and U+2003 in three bytes. -/
example : let g : Nat → UInt8 := fun l => ([0x20, 0xE2, 0x80, 0x83][l]?).getD 0xFF
    (∀ x ∈ [' '] ++ ['\u2003'], Str.isWhitespace x = true) ∧ Spans g 0 4 ([' '] ++ ['\u2003']) ∧
    (Scan.trimStart 4 4 4 0).asked g = [0, 1, 2, 3] ∧ (Scan.trimEnd 4 4 4 4).asked g = [3, 2, 1] := by
  unfold Spans
  decide +kernel

/-- Of `C71_only`: bytes that differ before the last character, and are no UTF-8 there. -/
example : let m : Mem Stacked.rules 8 := stackedMem charBytes
    let m' : Mem Stacked.rules 8 := stackedMem fun l => if l < 3 then 0xFF else charBytes l
    m'.mem = m.mem ∧ m'.next = m.next ∧ Spans m.bytes 0 6 ([' ', 'é'] ++ ['€']) ∧
    (∀ l, byteLen [' ', 'é'] ≤ l → l < 6 → m'.bytes l = m.bytes l) ∧ m'.bytes 1 ≠ m.bytes 1 := by
  refine ⟨rfl, rfl, by unfold Spans; decide, fun l hl _ => if_neg ?_, by decide⟩
  have : byteLen [' ', 'é'] = 3 := by decide
  omega

/-- What they give. -/
example : steps 8 charOps [' ', 'é', '€', ' '] =
    ([.returned .unit, .failed .utf8, .panicked, .returned .unit, .returned (.char '€'), .returned (.optChar (some 'é')), .returned .unit,
      .returned (.char '€'), .failed .outOfBounds, .returned (.drained [none, none, none] []),
      .returned (.optChar none), .returned .unit, .returned (.str [])], []) := by decide

/-! ## Tests -/

/-- Where the scans look on these bytes. -/
example : (Scan.last 0 6).asked charBytes = [5, 4, 3] ∧ (Scan.last 0 7).asked charBytes = [6] ∧
    (Scan.next 3 6).asked charBytes = [3, 4, 5] ∧ (Scan.trimStart 7 7 7 0).asked charBytes = [0, 1, 2] ∧
    (Scan.trimEnd 1 7 7 7).asked charBytes = [6, 5, 4, 3] := by decide +kernel

/-- The calls on the memory. -/
example : (Machine.Chars.exec 1 3 .pop (stackedMem sampleBytes : Mem Stacked.rules 8)).1 = .ok (.optChar (some '€')) ∧
    (Machine.Chars.exec 1 3 .pop (treeMem sampleBytes : Mem Tree.rules 8)).1 = .ok (.optChar (some '€')) := by
  decide +kernel

/-- The decoder may not be used on a text that is cut off, nor on bytes that are no character. -/
example : (Machine.scan 1 (Scan.next 0 2) (stackedMem fun _ => 0xE2 : Mem Stacked.rules 8) : Res Empty _ × _).1 = .ub ∧
    (Machine.scan 1 (Scan.last 0 3) (stackedMem fun _ => 0x82 : Mem Stacked.rules 8) : Res Empty _ × _).1 = .ub ∧
    (Machine.scan 1 (Scan.next 0 8) (stackedMem fun _ => 0xFF : Mem Stacked.rules 8) : Res Empty _ × _).1 = .ub := by
  decide +kernel

/-- Nor through a reference that has been overwritten. -/
example : ((do
      Machine.store 0 0 [0x41]
      Machine.scan 1 (Scan.next 0 1) : M (Mem Stacked.rules 8) Empty _) (stackedMem charBytes)).1 = .ub ∧
    ((do
      Machine.store 0 0 [0x41]
      Machine.scan 1 (Scan.next 1 3) : M (Mem Stacked.rules 8) Empty _) (stackedMem charBytes)).1 =
        .ok (some 'é', 3) := by decide +kernel

end Verif
