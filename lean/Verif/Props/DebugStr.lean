import Verif.Proofs.DebugStr
import Verif.Props.Debug

/-! # `Debug`, down to the characters -/

namespace Verif
open Spec ArrayString Printing

variable {N N' : Nat}

/-- C63: the `Debug` of `str`, which is used for the text, prints the text in quotes, escaped. -/
theorem C63_str (t : Core.Tables) (cs : List Char) (hM : byteLen cs ≤ usizeMax) (o : FmtOpts) :
    Prints (Core.debugStr t (utf8 cs)) o (quoted (fun c => t.printable c && !t.graphemeExtended c) cs) :=
  prints_str t cs hM o

/-- C63: the `Debug` of `u8`, which is used for the length, prints the number. -/
theorem C63_u8 (n : UInt8) (o : FmtOpts) : Prints (Core.debugU8 n) o (numberText o n.toNat) := by
  have := prints_u8 n.toNat n.toNat_lt o
  rwa [UInt8.ofNat_toNat] at this

/-- C63: what `Debug` prints for a string, for all options, and whatever the sink does. -/
theorem C63_debug [ValidCapacity N] (t : Core.Tables) (s : ArrayString N) (cs : List Char) (hs : Holds s cs) (o : FmtOpts) :
    Prints (@ArrayString.debug N (Core.debugStr t) Core.debugU8 s) o
      (stringText (fun c => t.printable c && !t.graphemeExtended c) o cs) := by
  have hle := hs.le
  have hN : N ≤ 255 := ValidCapacity.le
  have hM := usizeMax_ge
  have hz : s.size.toNat = byteLen cs := hs.len
  have h1 := C63_str t cs (by omega) o
  have h2 := C63_u8 s.size o
  rw [hz] at h2
  have key := writes_struct (name := lit "ArrayString") (l1 := lit "array") (l2 := lit "size")
    (nm := "ArrayString".toList) (t1 := "array".toList) (t2 := "size".toList) (by decide) (by decide) (by decide)
    (by decide) (by decide) h1 h2
  have e : ∀ (ω : Type) (sk : Sink ω), ArrayString.debug (Core.debugStr t) Core.debugU8 s sk o =
      Fmt.debugStruct sk o (lit "ArrayString") [(lit "array", Core.debugStr t (utf8 cs)), (lit "size", Core.debugU8 s.size)] := by
    intro ω sk
    unfold ArrayString.debug
    rw [hs.asStr]
    rfl
  show Writes (fun _ sk => ArrayString.debug (Core.debugStr t) Core.debugU8 s sk o) _
  simp only [e]
  refine writes_eq key ?_
  unfold stringText
  have a1 : "ArrayString {\n".toList = "ArrayString".toList ++ [' ', '{', '\n'] := by decide
  have a2 : "array: ".toList = "array".toList ++ [':', ' '] := by decide
  have a3 : "size: ".toList = "size".toList ++ [':', ' '] := by decide
  have a4 : ",\n".toList = [',', '\n'] := by decide
  have a5 : "}".toList = ['}'] := by decide
  have a6 : "ArrayString { array: ".toList = "ArrayString".toList ++ [' ', '{', ' '] ++ "array".toList ++ [':', ' '] := by
    decide
  have a7 : ", size: ".toList = [',', ' '] ++ "size".toList ++ [':', ' '] := by decide
  have a8 : " }".toList = [' ', '}'] := by decide
  rw [a1, a2, a3, a4, a5, a6, a7, a8]
  cases o.alternate <;> simp only [List.append_assoc, if_true, Bool.false_eq_true, if_false]

/-- C63: what `Debug` prints for a `Drain` and for a `CacheString`. -/
theorem C63_wrapped [ValidCapacity N] (t : Core.Tables) (s : ArrayString N) (cs : List Char) (hs : Holds s cs)
    (a : ArrayString 63) (ds : List Char) (ha : Holds a ds) (o : FmtOpts) :
    Prints ((⟨s⟩ : ArrayString.Drain N).debug (Core.debugStr t) Core.debugU8) o
      (wrappedText "Drain".toList o (stringText (fun c => t.printable c && !t.graphemeExtended c) o cs)) ∧
    Prints ((⟨a⟩ : CacheString).debug (Core.debugStr t) Core.debugU8) o
      (wrappedText "CacheString".toList o (stringText (fun c => t.printable c && !t.graphemeExtended c) o ds)) := by
  have a1 : "(\n".toList = ['(', '\n'] := by decide
  have a2 : "(".toList = ['('] := by decide
  have a3 : ",\n".toList = [',', '\n'] := by decide
  have a4 : ")".toList = [')'] := by decide
  constructor
  · refine writes_eq (writes_tuple (name := lit "Drain") (nm := "Drain".toList) (by decide) (C63_debug t s cs hs o)) ?_
    unfold wrappedText
    rw [a1, a2, a3, a4]
  · refine writes_eq (writes_tuple (name := lit "CacheString") (nm := "CacheString".toList) (by decide)
      (C63_debug t a ds ha o)) ?_
    unfold wrappedText
    rw [a1, a2, a3, a4]

/-- What is printed into a sink that collects bytes. -/
theorem prints_collect {d : Fmt.Dbg} {o : FmtOpts} {t : List Char} (h : Prints d o t) (w : Bytes) :
    d collect o w = (.ok (), w ++ utf8 t) := by
  obtain ⟨ws, rfl, h⟩ := h
  refine (congrFun (h _ collect) w).trans ?_
  clear h
  induction ws generalizing w with
  | nil => simp [writeTexts]
  | cons x ws ih =>
    have e : writeTexts collect (x :: ws) w = writeTexts collect ws (w ++ utf8 x) := rfl
    rw [e, ih]
    simp

/-- C63: the output determines the text: two strings, of whatever capacities, that print the same hold the
same text, also inside a `Drain` or a `CacheString`, and for all options. -/
theorem C63_determines [ValidCapacity N] [ValidCapacity N'] (t : Core.Tables) (o : FmtOpts) (s : ArrayString N)
    (cs : List Char) (hs : Holds s cs) (s' : ArrayString N') (ds : List Char) (hs' : Holds s' ds) (a a' : ArrayString 63)
    (es es' : List Char) (ha : Holds a es) (ha' : Holds a' es') :
    (s.debug (Core.debugStr t) Core.debugU8 collect o [] = s'.debug (Core.debugStr t) Core.debugU8 collect o [] →
      cs = ds) ∧
    ((⟨s⟩ : Drain N).debug (Core.debugStr t) Core.debugU8 collect o [] =
      (⟨s'⟩ : Drain N').debug (Core.debugStr t) Core.debugU8 collect o [] → cs = ds) ∧
    ((⟨a⟩ : CacheString).debug (Core.debugStr t) Core.debugU8 collect o [] =
      (⟨a'⟩ : CacheString).debug (Core.debugStr t) Core.debugU8 collect o [] → es = es') := by
  have h1 := C63_wrapped t s cs hs a es ha o
  have h2 := C63_wrapped t s' ds hs' a' es' ha' o
  refine ⟨fun h => ?_, fun h => ?_, fun h => ?_⟩
  · rw [prints_collect (C63_debug t s cs hs o), prints_collect (C63_debug t s' ds hs' o)] at h
    simp only [List.nil_append, Prod.mk.injEq, true_and] at h
    exact stringText_inj (utf8_injective h)
  · rw [prints_collect h1.1, prints_collect h2.1] at h
    simp only [List.nil_append, Prod.mk.injEq, true_and] at h
    exact stringText_inj (wrappedText_inj (utf8_injective h))
  · rw [prints_collect h1.2, prints_collect h2.2] at h
    simp only [List.nil_append, Prod.mk.injEq, true_and] at h
    exact stringText_inj (wrappedText_inj (utf8_injective h))

/-- C63: nothing invisible gets out: every character of a quoted text is visible ASCII, a space, or one that
the tables say is printable and does not extend the character before it; whatever they say, there is no
line feed. -/
theorem C63_visible (t : Core.Tables) (cs : List Char) :
    (∀ c ∈ quoted (fun c => t.printable c && !t.graphemeExtended c) cs,
      IsPlain c ∨ (t.printable c = true ∧ t.graphemeExtended c = false)) ∧
    '\n' ∉ quoted (fun c => t.printable c && !t.graphemeExtended c) cs := by
  refine ⟨fun c hc => ?_, quoted_no_lf⟩
  have : IsPlain c ∨ (fun c => t.printable c && !t.graphemeExtended c) c = true := by
    rcases List.mem_append.1 hc with hc | hc
    · rcases List.mem_append.1 hc with hc | hc
      · rw [List.mem_singleton.1 hc]; left; decide
      · obtain ⟨x, -, hx⟩ := List.mem_flatMap.1 hc
        exact escape_mem c hx
    · rw [List.mem_singleton.1 hc]; left; decide
  simpa using this

/-- C63: visible ASCII without quotes and backslashes is printed as it is. -/
theorem C63_plain (f : Char → Bool) (cs : List Char) (h : ∀ c ∈ cs, IsPlain c ∧ c ≠ '"' ∧ c ≠ '\\') :
    quoted f cs = ['"'] ++ cs ++ ['"'] := by
  have : cs.flatMap (escapeChar f) = cs := by
    induction cs with
    | nil => rfl
    | cons c cs ih =>
      obtain ⟨h1, h2, h3⟩ := h c (List.mem_cons_self ..)
      rw [List.flatMap_cons, escapeChar_skips ⟨h1, h3, h2⟩, ih (fun x hx => h x (List.mem_cons_of_mem _ hx))]
      rfl
  rw [quoted, this]

example : ∀ c ∈ ['a', ' ', 'b', '~', '\''], IsPlain c ∧ c ≠ '"' ∧ c ≠ '\\' := by decide

/-- C63: `write!(d, "{:?}", s)` of a string into another one: everything if it fits, and otherwise an error
and a proper beginning of it. -/
theorem C63_write [ValidCapacity N] [ValidCapacity N'] (t : Core.Tables) (o : FmtOpts) (s : ArrayString N) (cs : List Char)
    (hs : Holds s cs) (d : ArrayString N') (ds : List Char) (hd : Holds d ds) :
    let out := stringText (fun c => t.printable c && !t.graphemeExtended c) o cs
    let r := writeFmt [.arg o (fun o => s.debug (Core.debugStr t) Core.debugU8 sink o)] d
    (byteLen ds + byteLen out ≤ N' → ∃ d', r = (.ok (), d') ∧ Holds d' (ds ++ out)) ∧
    (N' < byteLen ds + byteLen out → ∃ d' a b, out = a ++ b ∧ b ≠ [] ∧ r = (.err {}, d') ∧ Holds d' (ds ++ a)) := by
  obtain ⟨ws, hw, h⟩ := C63_debug t s cs hs o
  have hp : PiecesWrite (sink (N := N')) [.arg o (fun o => s.debug (Core.debugStr t) Core.debugU8 sink o)] ws := by
    have := PiecesWrite.cons (p := .arg o (fun o => s.debug (Core.debugStr t) Core.debugU8 sink o)) (ws := ws)
      (h _ (sink (N := N'))) .nil
    simpa using this
  have key := C31_write_fmt _ _ hp d ds hd
  rw [hw] at key
  refine ⟨key.1, fun hlt => ?_⟩
  obtain ⟨d', a, w, b, e, h1, h2, h3, h4⟩ := key.2 hlt
  refine ⟨d', a.flatten, w ++ b.flatten, ?_, ?_, h3, h4⟩
  · rw [← hw, e]; simp
  · intro hz
    have : byteLen w = 0 := by
      have := congrArg byteLen hz
      simp at this
      exact this.1 ▸ rfl
    omega

/-- For instance with tables for which é and the combining acute accent U+0301 are printable and the latter
extends the character before it: `{:?}` and `{:#x?}` of a string with a tab, a quote, é, U+0301 and U+200B. -/
example : stringText (fun c => c == 'é') {} ['a', '\t', '"', 'é', '́', '​', '\''] =
    "ArrayString { array: \"a\\t\\\"é\\u{301}\\u{200b}'\", size: 11 }".toList := by decide

example : wrappedText "CacheString".toList { alternate := true, debugHex := some .upper, width := some 6, zeroPad := true }
    (stringText (fun _ => false) { alternate := true, debugHex := some .upper, width := some 6, zeroPad := true }
      ['e', 'é', '\n', '\x00', '€', 'a', 'b', 'c']) =
    "CacheString(\n    ArrayString {\n        array: \"e\\u{e9}\\n\\0\\u{20ac}abc\",\n        size: 0x000B,\n    },\n)".toList := by
  decide

/-- The tables of C51 can be those of C63. -/
example (t : Core.Tables) (cs : List Char) (hM : byteLen cs ≤ usizeMax) (o : FmtOpts) :
    Shows (Core.debugStr t (utf8 cs)) o (utf8 (quoted (fun c => t.printable c && !t.graphemeExtended c) cs)) := by
  obtain ⟨ws, e, h⟩ := C63_str t cs hM o
  intro ω sk f hf w
  rw [h, ← e]
  clear h e
  induction ws generalizing w with
  | nil => simp [writeTexts, hf.nil]
  | cons x ws ih =>
    refine (bind_of_ok (hf.writes _ _)).trans ?_
    rw [ih, List.flatten_cons, utf8_append, hf.append]

/-- A string of capacity 20 into one of capacity 48 that has room, and into one that has not. -/
example : byteLen ['>'] + byteLen (stringText (fun _ => true) {} ['a', '\n', 'ü']) ≤ 48 ∧
    30 < byteLen ['>'] + byteLen (stringText (fun _ => true) {} ['a', '\n', 'ü']) := by decide

end Verif
