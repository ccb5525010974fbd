import Verif.Spec.Debug
import Verif.Props.CacheString

/-! # What `Debug` prints -/

namespace Verif
open Spec

variable {ω : Type} {N : Nat}

theorem lines_eq_nil {b : Bytes} : Fmt.lines b = [] ↔ b = [] := by
  cases b with
  | nil => simp [Fmt.lines]
  | cons x b =>
    simp only [Fmt.lines, reduceCtorEq, iff_false]
    split
    · simp
    · split <;> simp

theorem lines_flatten (b : Bytes) : (Fmt.lines b).flatten = b := by
  induction b with
  | nil => rfl
  | cons x b ih =>
    simp only [Fmt.lines]
    split
    · simp [ih]
    · split
      · next h => rw [h] at ih; simp at ih; simp [← ih]
      · next h => rw [h] at ih; simpa using ih

/-- A line: no line feed but maybe at the end. -/
def IsLine (l : Bytes) : Prop := l ≠ [] ∧ ∀ a b, l = a ++ 10 :: b → b = []

theorem lines_isLine (b : Bytes) : ∀ l ∈ Fmt.lines b, IsLine l := by
  induction b with
  | nil => simp [Fmt.lines]
  | cons x b ih =>
    simp only [Fmt.lines]
    split
    · next h =>
      subst h
      intro l hl
      rcases List.mem_cons.1 hl with rfl | hl
      · refine ⟨by simp, fun a b e => ?_⟩
        cases a <;> simp_all
      · exact ih l hl
    · next h =>
      split
      · intro l hl
        rw [List.mem_singleton.1 hl]
        refine ⟨by simp, fun a b e => ?_⟩
        cases a <;> simp_all
      · next l0 ls h0 =>
        intro l hl
        rw [h0] at ih
        rcases List.mem_cons.1 hl with rfl | hl
        · have := ih l0 (List.mem_cons_self ..)
          refine ⟨by simp, fun a b e => ?_⟩
          cases a with
          | nil => simp_all
          | cons y a => simp at e; exact this.2 a b e.2
        · exact ih l (List.mem_cons_of_mem _ hl)

/-- Does a line begin after the bytes? -/
def startAfter (start : Bool) (b : Bytes) : Bool := if b = [] then start else b.getLast? == some 10

theorem startAfter_append (start : Bool) (a b : Bytes) :
    startAfter start (a ++ b) = startAfter (startAfter start a) b := by
  unfold startAfter
  rcases List.eq_nil_or_concat b with rfl | ⟨b, x, rfl⟩
  · simp
  · rw [List.concat_eq_append, ← List.append_assoc]; simp

theorem indent_append (start : Bool) (a b : Bytes) :
    indent start (a ++ b) = indent start a ++ indent (startAfter start a) b := by
  induction a generalizing start with
  | nil => simp [indent, startAfter]
  | cons x a ih =>
    have : startAfter start (x :: a) = startAfter (x == 10) a := by
      cases a <;> simp [startAfter]
    simp [indent, ih, this]

theorem indent_false_of_noLf (b : Bytes) (h : ∀ a c, b = a ++ 10 :: c → c = []) : indent false b = b := by
  induction b with
  | nil => rfl
  | cons x b ih =>
    by_cases hx : x = 10
    · subst hx
      have := h [] b rfl
      subst this; rfl
    · have hx' : (x == 10) = false := by simp [hx]
      simp only [indent, hx', ih (fun a c e => h (x :: a) c (by simp [e]))]
      simp

theorem indent_line (start : Bool) {l : Bytes} (h : IsLine l) :
    indent start l = (if start then [32, 32, 32, 32] else []) ++ l := by
  cases l with
  | nil => exact absurd rfl h.1
  | cons x l =>
    have := indent_false_of_noLf (x :: l) h.2
    simp only [indent] at this ⊢
    simp at this
    rw [this]

theorem bind_of_ok {σ ε α β : Type} {m : M σ ε α} {f : α → M σ ε β} {s s' : σ} {a : α} (h : m s = (.ok a, s')) :
    (m >>= f) s = f a s' := by
  rw [M.bind_apply, h]

/-- What `PadAdapter` does. -/
def padState (f : ω → Bytes → ω) (p : ω × Bool) (b : Bytes) : ω × Bool :=
  (f p.1 (indent p.2 b), startAfter p.2 b)

theorem padLines_spec {sk : Sink ω} {f : ω → Bytes → ω} (h : Accepts sk f) (ls : List Bytes)
    (hl : ∀ l ∈ ls, IsLine l) (p : ω × Bool) :
    Fmt.padLines sk ls p = (.ok (), padState f p ls.flatten) := by
  induction ls generalizing p with
  | nil => simp [Fmt.padLines, padState, indent, startAfter, h.nil]
  | cons l ls ih =>
    obtain ⟨w, st⟩ := p
    have hl0 := hl l (List.mem_cons_self ..)
    have ih := ih (fun l h => hl l (List.mem_cons_of_mem _ h))
    have hs : startAfter st l = (l.getLast? == some 10) := by simp [startAfter, hl0.1]
    have e : padState f (w, st) (l :: ls).flatten =
        padState f (f w ((if st then [32, 32, 32, 32] else []) ++ l), l.getLast? == some 10) ls.flatten := by
      simp only [padState, List.flatten_cons, indent_append, startAfter_append, h.append, indent_line _ hl0, hs]
    rw [e]
    have on : ∀ (b : Bytes) (w : ω) (st : Bool),
        Fmt.padLines.onSink (sk.writeStr b) (w, st) = (.ok (), (f w b, st)) := by
      intro b w st
      simp only [Fmt.padLines.onSink, h.writes]
    unfold Fmt.padLines
    refine (bind_of_ok rfl).trans ?_
    cases st
    · refine (bind_of_ok rfl).trans ?_
      refine (bind_of_ok rfl).trans ?_
      exact (bind_of_ok (on ..)).trans (ih _)
    · refine (bind_of_ok (on ..)).trans ?_
      refine (bind_of_ok rfl).trans ?_
      refine (bind_of_ok rfl).trans ?_
      refine (bind_of_ok (on ..)).trans ?_
      rw [ih, ← h.append]; rfl

/-- `PadAdapter` around an accepting sink is one. -/
theorem padAdapter_accepts {sk : Sink ω} {f : ω → Bytes → ω} (h : Accepts sk f) :
    Accepts (Fmt.padAdapter sk) (padState f) where
  writes b p := by
    have := padLines_spec h (Fmt.lines b) (lines_isLine b) p
    rwa [lines_flatten] at this
  nil p := by simp [padState, indent, startAfter, h.nil]
  append p a b := by simp [padState, indent_append, startAfter_append, h.append]

theorem collect_accepts : Accepts collect (· ++ ·) where
  writes _ _ := rfl
  nil := by simp
  append := by simp

/-- The text of one field after its label. -/
def fieldText (label v : Bytes) : Bytes := (if label = [] then [] else label ++ [58, 32]) ++ v

theorem debugFields_spec {sk : Sink ω} {f : ω → Bytes → ω} (h : Accepts sk f) (o : FmtOpts) (op : Bytes)
    (fs : List (Bytes × Fmt.Dbg)) (vs : List Bytes) (hl : fs.length = vs.length)
    (hv : ∀ p ∈ fs.zip vs, Shows p.1.2 o p.2) (first : Bool) (w : ω) :
    Fmt.debugFields sk o op first fs w = (.ok (), f w
      (match fs.zip vs with
        | [] => []
        | (p, v) :: r =>
          if o.alternate then
            (if first then op ++ [10] else []) ++ indent true (fieldText p.1 v ++ [44, 10]) ++
              r.flatMap (fun q => indent true (fieldText q.1.1 q.2 ++ [44, 10]))
          else
            (if first then (if p.1 = [] then op else op ++ [32]) else [44, 32]) ++ fieldText p.1 v ++
              r.flatMap (fun q => [44, 32] ++ fieldText q.1.1 q.2))) := by
  induction fs generalizing vs first w with
  | nil => simp [Fmt.debugFields, h.nil]
  | cons p fs ih =>
    obtain ⟨label, d⟩ := p
    cases vs with
    | nil => simp at hl
    | cons v vs =>
      have hd : Shows d o v := hv ((label, d), v) (by simp)
      have ih := ih vs (by simpa using hl) (fun p hp => hv p (by simp [hp])) false
      have hpad := padAdapter_accepts h
      have ih' : ∀ w, Fmt.debugFields sk o op false fs w = (.ok (), f w (
          if o.alternate then (fs.zip vs).flatMap (fun q => indent true (fieldText q.1.1 q.2 ++ [44, 10]))
          else (fs.zip vs).flatMap (fun q => [44, 32] ++ fieldText q.1.1 q.2))) := by
        intro w
        rw [ih]
        cases fs.zip vs with
        | nil => simp
        | cons q r => cases o.alternate <;> simp
      by_cases ha : o.alternate = true
      · have hp : ∀ w, Fmt.padded (do
            if label.isEmpty then pure () else do
              (Fmt.padAdapter sk).writeStr label
              (Fmt.padAdapter sk).writeStr [58, 32]
            d (Fmt.padAdapter sk) o
            (Fmt.padAdapter sk).writeStr [44, 10]) w = (.ok (), f w (indent true (fieldText label v ++ [44, 10]))) := by
          intro w
          have e : (do
            if label.isEmpty then pure () else do
              (Fmt.padAdapter sk).writeStr label
              (Fmt.padAdapter sk).writeStr [58, 32]
            d (Fmt.padAdapter sk) o
            (Fmt.padAdapter sk).writeStr [44, 10] : M (ω × Bool) FmtError Unit) (w, true) =
              (.ok (), padState f (w, true) (fieldText label v ++ [44, 10])) := by
            cases label with
            | nil => simp [M.bind_apply, hd _ _ _ hpad, hpad.writes, fieldText, hpad.append]
            | cons x l =>
              simp [M.bind_apply, hd _ _ _ hpad, hpad.writes, fieldText, ← hpad.append]
          unfold Fmt.padded
          rw [e]; rfl
        unfold Fmt.debugFields
        simp only [ha, if_true] at ih' ⊢
        cases first
        · refine (bind_of_ok (hp _)).trans ?_
          simp [ih', ← h.append]
        · refine (bind_of_ok (h.writes _ _)).trans ?_
          refine (bind_of_ok (hp _)).trans ?_
          simp [ih', ← h.append]
      · unfold Fmt.debugFields
        simp only [ha] at ih' ⊢
        cases first <;> cases label <;>
          simp [M.bind_apply, ih', h.writes, ← h.append, hd _ _ _ h, fieldText]

/-- C51: the `Debug` output of a string: in the plain form
`ArrayString { array: <text>, size: <length> }`, and with `{:#?}`
```text
ArrayString {
    array: <text>,
    size: <length>,
}
```
where the fields are what the `Debug` of `str` and `u8` show. -/
theorem C51_debug_shape (dbgStr : Bytes → Fmt.Dbg) (dbgU8 : UInt8 → Fmt.Dbg) (s : ArrayString N) (cs : List Char)
    (hs : Holds s cs) (o : FmtOpts) (v n : Bytes) (hv : Shows (dbgStr (utf8 cs)) o v)
    (hn : Shows (dbgU8 (UInt8.ofNat (byteLen cs))) o n) :
    Shows (@ArrayString.debug N dbgStr dbgU8 s) o
      (if o.alternate then
        lit "ArrayString {\n" ++ indent true (lit "array: " ++ v ++ lit ",\n") ++
          indent true (lit "size: " ++ n ++ lit ",\n") ++ lit "}"
      else lit "ArrayString { array: " ++ v ++ lit ", size: " ++ n ++ lit " }") := by
  intro ω sk f h w
  have hz : s.size = UInt8.ofNat (byteLen cs) := by
    rw [← hs.len]; simp [ArrayString.len]
  unfold ArrayString.debug Fmt.debugStruct
  have key := debugFields_spec h o [32, 123] [(lit "array", dbgStr (utf8 cs)), (lit "size", dbgU8 s.size)] [v, n] rfl
    (by rw [hz]; intro p hp; simp at hp; rcases hp with rfl | rfl <;> assumption) true
  simp only [M.bind_apply, M.lift_apply, hs.asStr, h.writes, key, ← h.append]
  have e1 : lit "array" ≠ [] := by decide
  have e2 : lit "size" ≠ [] := by decide
  have l1 : lit "ArrayString {\n" = lit "ArrayString" ++ [32, 123, 10] := by decide
  have l2 : lit "ArrayString { array: " = lit "ArrayString" ++ [32, 123, 32] ++ lit "array" ++ [58, 32] := by decide
  have l3 : lit "array: " = lit "array" ++ [58, 32] := by decide
  have l4 : lit "size: " = lit "size" ++ [58, 32] := by decide
  have l5 : lit ", size: " = [44, 32] ++ lit "size" ++ [58, 32] := by decide
  have l6 : lit ",\n" = [44, 10] := by decide
  have l7 : lit "}" = [125] := by decide
  have l8 : lit " }" = [32, 125] := by decide
  by_cases ha : o.alternate = true <;> simp [ha, fieldText, e1, e2, l1, l2, l3, l4, l5, l6, l7, l8]

/-- C51: the `Debug` output of a `Drain` and of a `CacheString` is that of the string inside, in
parentheses (indented, on its own lines, with `{:#?}`). -/
theorem C51_debug_wrapped_shape (dbgStr : Bytes → Fmt.Dbg) (dbgU8 : UInt8 → Fmt.Dbg) (s : ArrayString N)
    (a : ArrayString 63) (o : FmtOpts) (v : Bytes) :
    (Shows (s.debug dbgStr dbgU8) o v → Shows ((⟨s⟩ : ArrayString.Drain N).debug dbgStr dbgU8) o
      (if o.alternate then lit "Drain(\n" ++ indent true (v ++ lit ",\n") ++ lit ")"
       else lit "Drain(" ++ v ++ lit ")")) ∧
    (Shows (a.debug dbgStr dbgU8) o v → Shows ((⟨a⟩ : CacheString).debug dbgStr dbgU8) o
      (if o.alternate then lit "CacheString(\n" ++ indent true (v ++ lit ",\n") ++ lit ")"
       else lit "CacheString(" ++ v ++ lit ")")) := by
  constructor
  · intro hv ω sk f h w
    unfold ArrayString.Drain.debug Fmt.debugTuple
    have key := debugFields_spec h o [40] [([], @ArrayString.debug N dbgStr dbgU8 s)] [v] rfl
      (by intro p hp; simp at hp; subst hp; exact hv) true
    refine (bind_of_ok (h.writes _ _)).trans ?_
    refine (bind_of_ok (key _)).trans ?_
    rw [h.writes, ← h.append, ← h.append]
    have l1 : lit "Drain(\n" = lit "Drain" ++ [40, 10] := by decide
    have l2 : lit "Drain(" = lit "Drain" ++ [40] := by decide
    have l3 : lit ",\n" = [44, 10] := by decide
    have l4 : lit ")" = [41] := by decide
    by_cases ha : o.alternate = true <;> simp [ha, fieldText, l1, l2, l3, l4]
  · intro hv ω sk f h w
    unfold CacheString.debug Fmt.debugTuple
    have key := debugFields_spec h o [40] [([], @ArrayString.debug 63 dbgStr dbgU8 a)] [v] rfl
      (by intro p hp; simp at hp; subst hp; exact hv) true
    refine (bind_of_ok (h.writes _ _)).trans ?_
    refine (bind_of_ok (key _)).trans ?_
    rw [h.writes, ← h.append, ← h.append]
    have l1 : lit "CacheString(\n" = lit "CacheString" ++ [40, 10] := by decide
    have l2 : lit "CacheString(" = lit "CacheString" ++ [40] := by decide
    have l3 : lit ",\n" = [44, 10] := by decide
    have l4 : lit ")" = [41] := by decide
    by_cases ha : o.alternate = true <;> simp [ha, fieldText, l1, l2, l3, l4]

/-- For instance with a `Debug` of `str` that writes quotes, the text and quotes, and a `Debug` of `u8`
that writes one digit. -/
example (o : FmtOpts) : Shows (fun sk _ => do sk.writeStr [34]; sk.writeStr (utf8 ['h', 'é', ' ']); sk.writeStr [34]) o
      ([34] ++ utf8 ['h', 'é', ' '] ++ [34]) ∧
    Shows (fun sk _ => sk.writeStr [52]) o [52] := by
  constructor
  · intro ω sk f h w
    refine (bind_of_ok (h.writes _ _)).trans ?_
    refine (bind_of_ok (h.writes _ _)).trans ?_
    rw [h.writes, h.append, h.append]
  · intro ω sk f h w
    exact h.writes _ _

example : lit "Drain(\n" ++ indent true (
      lit "ArrayString {\n" ++ indent true (lit "array: " ++ lit "\"hé \"" ++ lit ",\n") ++
        indent true (lit "size: " ++ lit "4" ++ lit ",\n") ++ lit "}" ++ lit ",\n") ++ lit ")" =
    lit "Drain(\n    ArrayString {\n        array: \"hé \",\n        size: 4,\n    },\n)" := by decide

end Verif
