import Verif.Props.Constructors
import Verif.Props.Mutators
import Verif.Spec.Fmt
import Verif.Model.History

/-! # Properties of the trait implementations, of `Drain` and of the errors -/

namespace Verif
open Spec ArrayString

variable {N : Nat} [ValidCapacity N] {ε φ ω κ η : Type}

/-! ## Drain -/

/-- C25: for every interleaving, the answers are those of a double-ended queue of the characters, and
the rest is what `as_str` shows. -/
theorem C25_drain_deque (es : List End) (d : Drain N) (cs : List Char) (hd : Holds d.inner cs) :
    ∃ d' : Drain N, (drainEnds es : M (Drain N) ε _) d = (.ok (takeEnds es cs).1, d') ∧
      Holds d'.inner (takeEnds es cs).2 ∧ (d'.asStr : Res ε Bytes) = .ok (utf8 (takeEnds es cs).2) := by
  induction es generalizing d cs with
  | nil => exact ⟨d, rfl, hd, hd.asStr⟩
  | cons e es ih =>
    have step : ∃ d1 : Drain N, (match e with | .front => Drain.next | .back => Drain.nextBack : M (Drain N) ε _) d =
        (.ok (takeEnd e cs).1, d1) ∧ Holds d1.inner (takeEnd e cs).2 := by
      cases e with
      | front =>
        cases cs with
        | nil => exact ⟨d, drain_next_nil ValidCapacity.le hd, hd⟩
        | cons c cs => exact drain_next_cons ValidCapacity.le hd
      | back =>
        rcases List.eq_nil_or_concat cs with rfl | ⟨cs, c, rfl⟩
        · exact ⟨d, drain_nextBack_nil hd, hd⟩
        · rw [List.concat_eq_append] at hd ⊢
          have := drain_nextBack_snoc (ε := ε) hd
          simpa [takeEnd] using this
    obtain ⟨d1, e1, h1⟩ := step
    obtain ⟨d2, e2, h2, h3⟩ := ih d1 _ h1
    refine ⟨d2, ?_, h2, h3⟩
    cases e <;> simp only [drainEnds, M.bind_apply] <;> simp only at e1 <;> rw [e1] <;> simp [e2, takeEnds]

/-- C25: a double-ended queue hands out each character once, and all of them: the answers from the
front, the rest, and the answers from the back in reverse give back the text. -/
theorem C25_each_once (es : List End) (cs : List Char) :
    let ans := (es.zip (takeEnds es cs).1)
    (ans.filterMap fun p => if p.1 = .front then p.2 else none) ++ (takeEnds es cs).2 ++
      (ans.filterMap fun p => if p.1 = .back then p.2 else none).reverse = cs := by
  induction es generalizing cs with
  | nil => simp [takeEnds]
  | cons e es ih =>
    have h := ih (takeEnd e cs).2
    simp only [takeEnds, List.zip_cons_cons, List.filterMap_cons] at *
    cases e with
    | front =>
      cases cs with
      | nil => simpa [takeEnd] using h
      | cons c cs => simp [takeEnd] at *; exact h
    | back =>
      rcases List.eq_nil_or_concat cs with rfl | ⟨cs, c, rfl⟩
      · simpa [takeEnd] using h
      · simp [takeEnd] at *
        rw [← List.append_assoc, ← List.append_assoc, List.append_assoc _ _ (List.reverse _), h]

/-- C25: once empty, `None` for ever. -/
theorem C25_fused (es : List End) (d : Drain N) (hd : Holds d.inner []) :
    (drainEnds es : M (Drain N) ε _) d = (.ok (es.map fun _ => none), d) := by
  induction es with
  | nil => rfl
  | cons e es ih =>
    cases e
    · simp [drainEnds, M.bind_apply, drain_next_nil ValidCapacity.le hd, ih]
    · simp [drainEnds, M.bind_apply, drain_nextBack_nil hd, ih]

/-- C25: the default `Drain` is over. -/
theorem C25_default (es : List End) :
    ((Drain.default : Drain N).asStr : Res ε Bytes) = .ok [] ∧
    (drainEnds es : M (Drain N) ε _) Drain.default = (.ok (es.map fun _ => none), Drain.default) :=
  have h : Holds (Drain.default : Drain N).inner [] := holds_new
  ⟨h.asStr, C25_fused es _ h⟩

/-- C25, from the call of `drain` on: the characters yielded are those of the removed range. -/
theorem C25_drained (es : List End) (s : ArrayString N) (p m q : List Char) (r : RangeB)
    (hs : Holds s (p ++ m ++ q)) (hp : byteLen p = startOf r)
    (hm : byteLen (p ++ m) = endOf r (byteLen (p ++ m ++ q))) :
    ∃ s' d d', ArrayString.drain r s = (.ok d, s') ∧ Holds s' (p ++ q) ∧
      (d.asStr : Res ε Bytes) = .ok (utf8 m) ∧
      (drainEnds es : M (Drain N) ε _) d = (.ok (takeEnds es m).1, d') ∧
      (d'.asStr : Res ε Bytes) = .ok (utf8 (takeEnds es m).2) := by
  obtain ⟨s', d, e, h1, h2, h3⟩ := (C24_drain (ε := ε) s _ r hs).2.2 p m q rfl hp hm
  obtain ⟨d', e', _, h4⟩ := C25_drain_deque (ε := ε) es d m h3
  exact ⟨s', d, d', e, h1, h2, e', h4⟩

example : Holds sample (['h'] ++ ['é'] ++ [' ']) ∧ byteLen ['h'] = startOf (.inclusive 1 2) ∧
    byteLen (['h'] ++ ['é']) = endOf (.inclusive 1 2) (byteLen (['h'] ++ ['é'] ++ [' '])) :=
  ⟨sample_holds, by decide, by decide⟩

/-- An interleaving that meets in the middle. -/
example : takeEnds [.front, .back, .front, .back] ['a', 'é', '𝄞'] =
    ([some 'a', some '𝄞', some 'é', none], []) := by decide
example : Holds (⟨sample⟩ : Drain 8).inner ['h', 'é', ' '] := sample_holds

/-! ## Equality, hashing, ordering -/

omit [ValidCapacity N] in
/-- C28: all the ways to compare agree with equality of the texts, whatever the bytes past the
length. -/
theorem C28_eq (s t : ArrayString N) (cs ds : List Char) (hs : Holds s cs) (ht : Holds t ds) :
    (s.eq t : Res ε Bool) = .ok (decide (cs = ds)) ∧
    (s.eqStr (utf8 ds) : Res ε Bool) = .ok (decide (cs = ds)) ∧
    (s.eqStrRef ⟨utf8 ds⟩ : Res ε Bool) = .ok (decide (cs = ds)) ∧
    ((⟨s⟩ : Drain N).eq ⟨t⟩ : Res ε Bool) = .ok (decide (cs = ds)) := by
  have h : (utf8 cs == utf8 ds) = decide (cs = ds) := by
    rw [Bool.eq_iff_iff]
    simp only [beq_iff_eq, decide_eq_true_eq]
    exact ⟨utf8_injective, fun h => h ▸ rfl⟩
  refine ⟨?_, ?_, ?_, ?_⟩
  · simp [ArrayString.eq, hs.asStr, ht.asStr, Str.eq, h]
  · simp [eqStr, hs.asStr, Str.eq, h]
  · simp [eqStrRef, eqStr, hs.asStr, Str.eq, h]
  · simp [Drain.eq, Drain.asStr, hs.asStr, ht.asStr, Str.eq, h]

omit [ValidCapacity N] in
/-- C28: an equivalence relation on the strings that hold a text. -/
theorem C28_equivalence (s t u : ArrayString N) (cs ds es : List Char) (hs : Holds s cs) (ht : Holds t ds)
    (hu : Holds u es) :
    (s.eq s : Res ε Bool) = .ok true ∧
    (s.eq t : Res ε Bool) = t.eq s ∧
    ((s.eq t : Res ε Bool) = .ok true → (t.eq u : Res ε Bool) = .ok true → (s.eq u : Res ε Bool) = .ok true) := by
  refine ⟨?_, ?_, ?_⟩
  · rw [(C28_eq (ε := ε) s s cs cs hs hs).1]; simp
  · rw [(C28_eq (ε := ε) s t cs ds hs ht).1, (C28_eq (ε := ε) t s ds cs ht hs).1]; simp [eq_comm]
  · rw [(C28_eq (ε := ε) s t cs ds hs ht).1, (C28_eq (ε := ε) t u ds es ht hu).1, (C28_eq (ε := ε) s u cs es hs hu).1]
    simp; exact Eq.trans

/-- Two different representations of the same text. -/
example : Holds sample ['h', 'é', ' '] ∧ Holds (⟨[104, 195, 169, 32, 0, 0, 0, 0], 4⟩ : ArrayString 8) ['h', 'é', ' '] ∧
    sample ≠ ⟨[104, 195, 169, 32, 0, 0, 0, 0], 4⟩ := by decide

omit [ValidCapacity N] in
/-- C29: hashing is exactly hashing the text as a `str`, for every hasher; so equal strings hash
alike, and like the `str` they `Borrow`. -/
theorem C29_hash (H : Hasher η) (h : η) (s : ArrayString N) (cs : List Char) (hs : Holds s cs) :
    (s.hash H h : Res ε η) = .ok (Str.hash H (utf8 cs) h) ∧
    ((⟨s⟩ : Drain N).hash H h : Res ε η) = .ok (Str.hash H (utf8 cs) h) ∧
    (s.borrow : Res ε Bytes) = .ok (utf8 cs) ∧ (s.deref : Res ε Bytes) = .ok (utf8 cs) := by
  refine ⟨?_, ?_, hs.asStr, hs.asRefStr⟩
  · simp [ArrayString.hash, hs.asStr]
  · simp [Drain.hash, Drain.asStr, hs.asStr]

omit [ValidCapacity N] in
/-- C29: strings that compare equal feed the same data to any hasher. -/
theorem C29_eq_hash (H : Hasher η) (h : η) (s t : ArrayString N) (cs ds : List Char) (hs : Holds s cs)
    (ht : Holds t ds) (e : (s.eq t : Res ε Bool) = .ok true) : (s.hash H h : Res ε η) = t.hash H h := by
  rw [(C28_eq (ε := ε) s t cs ds hs ht).1] at e
  simp at e
  subst e
  rw [(C29_hash H h s cs hs).1, (C29_hash H h t cs ht).1]

omit [ValidCapacity N] in
/-- C29: different texts feed different byte sequences, even if followed by anything else. -/
theorem C29_injective (s t : ArrayString N) (cs ds : List Char) (hs : Holds s cs) (ht : Holds t ds)
    (h a b x y : Bytes) (ha : (s.hash traceHasher h : Res ε Bytes) = .ok a)
    (hb : (t.hash traceHasher h : Res ε Bytes) = .ok b) (e : a ++ x = b ++ y) : cs = ds ∧ x = y := by
  rw [(C29_hash traceHasher h s cs hs).1, Res.ok.injEq] at ha
  rw [(C29_hash traceHasher h t ds ht).1, Res.ok.injEq] at hb
  subst ha hb
  simp only [Str.hash, traceHasher, List.append_assoc, List.append_cancel_left_eq, List.cons_append,
    List.nil_append] at e
  exact terminated_injective e

/-- The recorded bytes are not trivial. -/
example : (sample.hash traceHasher [1] : Res Unit Bytes) = .ok [1, 104, 195, 169, 32, 255] := by decide

omit [ValidCapacity N] in
/-- C30: `cmp` and `partial_cmp` compare the texts by scalar values, like `str`. -/
theorem C30_cmp (s t : ArrayString N) (cs ds : List Char) (hs : Holds s cs) (ht : Holds t ds) :
    (s.cmp t : Res ε Ordering) = .ok (cmpText cs ds) ∧
    (s.partialCmp t : Res ε (Option Ordering)) = .ok (some (cmpText cs ds)) ∧
    ((⟨s⟩ : Drain N).cmp ⟨t⟩ : Res ε Ordering) = .ok (cmpText cs ds) ∧
    ((⟨s⟩ : Drain N).partialCmp ⟨t⟩ : Res ε (Option Ordering)) = .ok (some (cmpText cs ds)) ∧
    Str.cmp (utf8 cs) (utf8 ds) = cmpText cs ds := by
  have h := cmp_utf8 cs ds
  refine ⟨?_, ?_, ?_, ?_, h⟩
  · simp [ArrayString.cmp, hs.asStr, ht.asStr, h]
  · simp [ArrayString.partialCmp, ArrayString.cmp, hs.asStr, ht.asStr, h]
  · simp [Drain.cmp, Drain.asStr, hs.asStr, ht.asStr, h]
  · simp [Drain.partialCmp, Drain.cmp, Drain.asStr, hs.asStr, ht.asStr, h]

omit [ValidCapacity N] in
/-- C30: a total order, consistent with equality. -/
theorem C30_total_order (s t u : ArrayString N) (cs ds es : List Char) (hs : Holds s cs) (ht : Holds t ds)
    (hu : Holds u es) :
    ((s.cmp t : Res ε Ordering) = .ok .eq ↔ (s.eq t : Res ε Bool) = .ok true) ∧
    ((s.cmp t : Res ε Ordering) = .ok .lt ↔ (t.cmp s : Res ε Ordering) = .ok .gt) ∧
    ((s.cmp t : Res ε Ordering) = .ok .lt → (t.cmp u : Res ε Ordering) = .ok .lt →
      (s.cmp u : Res ε Ordering) = .ok .lt) := by
  rw [(C30_cmp (ε := ε) s t cs ds hs ht).1, (C30_cmp (ε := ε) t s ds cs ht hs).1, (C30_cmp (ε := ε) t u ds es ht hu).1,
    (C30_cmp (ε := ε) s u cs es hs hu).1, (C28_eq (ε := ε) s t cs ds hs ht).1]
  refine ⟨by simp [cmpText_eq], ?_, ?_⟩
  · rw [cmpText_swap cs ds]
    cases cmpText cs ds <;> simp
  · simp only [Res.ok.injEq]; exact cmpText_lt_trans

/-- Code point order differs from UTF-16 order: U+FF61 before U+1D11E. -/
example : cmpText ['a', '｡'] ['a', '𝄞'] = .lt := by decide

/-! ## Formatting -/

/-- C31: `write_str`. -/
theorem C31_write_str (s : ArrayString N) (cs w : List Char) (hs : Holds s cs) :
    (byteLen cs + byteLen w ≤ N → ∃ s', writeStr (utf8 w) s = (.ok (), s') ∧ Holds s' (cs ++ w)) ∧
    (N < byteLen cs + byteLen w → writeStr (utf8 w) s = (.err {}, s)) :=
  ⟨writeStr_ok ValidCapacity.le hs, writeStr_err ValidCapacity.le hs⟩

/-- Writing texts in turn into an `ArrayString`. -/
theorem writeTexts_sink (s : ArrayString N) (cs : List Char) (ws : List (List Char)) (hs : Holds s cs) :
    (byteLen cs + byteLen ws.flatten ≤ N →
      ∃ s', writeTexts sink ws s = (.ok (), s') ∧ Holds s' (cs ++ ws.flatten)) ∧
    (N < byteLen cs + byteLen ws.flatten →
      ∃ s' a w b, ws = a ++ w :: b ∧ byteLen cs + byteLen a.flatten ≤ N ∧
        N < byteLen cs + byteLen a.flatten + byteLen w ∧
        writeTexts sink ws s = (.err {}, s') ∧ Holds s' (cs ++ a.flatten)) := by
  induction ws generalizing s cs with
  | nil =>
    refine ⟨fun _ => ⟨s, rfl, by simpa using hs⟩, fun h => ?_⟩
    have := hs.le; simp at h; omega
  | cons w ws ih =>
    simp only [List.flatten_cons, byteLen_append]
    by_cases hw : byteLen cs + byteLen w ≤ N
    · obtain ⟨s1, e1, h1⟩ := writeStr_ok ValidCapacity.le hs hw
      obtain ⟨i1, i2⟩ := ih s1 _ h1
      simp only [byteLen_append] at i1 i2
      constructor
      · intro h
        obtain ⟨s2, e2, h2⟩ := i1 (by omega)
        refine ⟨s2, ?_, by simpa using h2⟩
        simp [writeTexts, M.bind_apply, sink, e1]; exact e2
      · intro h
        obtain ⟨s2, a, v, b, rfl, h3, h4, e2, h2⟩ := i2 (by omega)
        refine ⟨s2, w :: a, v, b, rfl, by simp; omega, by simp; omega, ?_, by simpa using h2⟩
        simp only [writeTexts, M.bind_apply, sink, e1]; exact e2
    · constructor
      · intro h; omega
      · intro _
        refine ⟨s, [], w, ws, rfl, by simpa using hs.le, by simpa using Nat.lt_of_not_le hw, ?_, by simpa using hs⟩
        simp only [writeTexts, M.bind_apply, sink, writeStr_err ValidCapacity.le hs (Nat.lt_of_not_le hw)]

theorem writeTexts_append (sk : Sink ω) (a b : List (List Char)) (w : ω) :
    writeTexts sk (a ++ b) w = (writeTexts sk a >>= fun _ => writeTexts sk b) w := by
  induction a generalizing w with
  | nil => rfl
  | cons x a ih =>
    simp only [List.cons_append, writeTexts, M.bind_apply]
    rcases sk.writeStr (utf8 x) w with ⟨r, w'⟩
    cases r <;> simp [ih, M.bind_apply]

/-- `write!` writes the texts of its pieces in turn. -/
theorem write_pieces (ps : List (Fmt.Piece (ArrayString N))) (ws : List (List Char))
    (h : PiecesWrite sink ps ws) (s : ArrayString N) (cs : List Char) (hs : Holds s cs) :
    writeFmt ps s = writeTexts sink ws s := by
  induction h generalizing s cs with
  | nil => rfl
  | @cons p ps ws ws' hp _ ih =>
    rw [writeTexts_append]
    cases p with
    | lit b =>
      obtain ⟨w, rfl, rfl⟩ := hp
      simp only [writeFmt, Fmt.write, M.bind_apply, isEmpty_utf8, writeTexts]
      by_cases hw : byteLen cs + byteLen w ≤ N
      · obtain ⟨s1, e1, h1⟩ := writeStr_ok ValidCapacity.le hs hw
        cases w with
        | nil =>
          have : s1 = s := by
            have e0 := replaceRange_noop (s := s) (r := .range s.len s.len) rfl
            simp [writeStr, tryPushStr, M.bind_apply] at e1
            rw [e0] at e1
            exact e1.2.symm
          subst this
          have i := ih s1 cs hs
          simp only [writeFmt] at i
          simp [sink] at *
          rw [e1]
          simpa using i
        | cons c w =>
          have i := ih s1 _ h1
          simp only [writeFmt] at i
          simp only [sink] at *
          simp [-utf8_cons, M.bind_apply, e1, i]
      · have e := writeStr_err ValidCapacity.le hs (Nat.lt_of_not_le hw)
        cases w with
        | nil => have := hs.le; simp at hw; omega
        | cons c w => simp [-utf8_cons, M.bind_apply, sink, e]
    | arg o f =>
      have hp : f o = writeTexts sink ws := hp
      simp only [writeFmt, Fmt.write, M.bind_apply, hp]
      have hcase := writeTexts_sink s cs ws hs
      by_cases hw : byteLen cs + byteLen ws.flatten ≤ N
      · obtain ⟨s1, e1, h1⟩ := hcase.1 hw
        simp only [e1]
        exact ih s1 _ h1
      · obtain ⟨s1, a, v, b, -, -, -, e1, -⟩ := hcase.2 (Nat.lt_of_not_le hw)
        simp only [e1]

/-- C31: `write!` of any format string: all the texts in order if they fit; otherwise it fails at the
first one, `w`, that does not, and the string holds exactly the ones before it. -/
theorem C31_write_fmt (ps : List (Fmt.Piece (ArrayString N))) (ws : List (List Char))
    (h : PiecesWrite sink ps ws) (s : ArrayString N) (cs : List Char) (hs : Holds s cs) :
    (byteLen cs + byteLen ws.flatten ≤ N →
      ∃ s', writeFmt ps s = (.ok (), s') ∧ Holds s' (cs ++ ws.flatten)) ∧
    (N < byteLen cs + byteLen ws.flatten →
      ∃ s' a w b, ws = a ++ w :: b ∧ byteLen cs + byteLen a.flatten ≤ N ∧
        N < byteLen cs + byteLen a.flatten + byteLen w ∧
        writeFmt ps s = (.err {}, s') ∧ Holds s' (cs ++ a.flatten)) := by
  rw [write_pieces ps ws h s cs hs]
  exact writeTexts_sink s cs ws hs

/-- `write!(s, "<{}>", x)` where `x` writes two pieces. -/
example : PiecesWrite (sink (N := 8))
    [.lit (utf8 ['<']), .arg {} (fun _ => writeTexts sink [['a'], ['é']]), .lit (utf8 ['>'])]
    [['<'], ['a'], ['é'], ['>']] :=
  .cons (p := .lit _) (ws := [['<']]) ⟨['<'], rfl, rfl⟩ <|
    .cons (p := .arg _ _) (ws := [['a'], ['é']]) (by rfl) <|
      .cons (p := .lit _) (ws := [['>']]) (ws' := []) ⟨['>'], rfl, rfl⟩ .nil

omit [ValidCapacity N] in
/-- C32: whatever the sink and the options, `Display` is one `write_str` of the text. -/
theorem C32_display (sk : Sink ω) (o : FmtOpts) (s : ArrayString N) (cs : List Char) (hs : Holds s cs) :
    s.display sk o = sk.writeStr (utf8 cs) := by
  funext w
  unfold ArrayString.display
  simp only [M.bind_apply, M.lift_apply, hs.asStr, Fmt.write, Fmt.pad]
  rcases h : sk.writeStr (utf8 cs) w with ⟨r, w'⟩
  cases r <;> simp

/-- C32: displaying into another `ArrayString` of any capacity `N`. -/
theorem C32_display_into {K : Nat} (o : FmtOpts) (s : ArrayString K) (cs : List Char) (hs : Holds s cs)
    (t : ArrayString N) (ds : List Char) (ht : Holds t ds) :
    (byteLen ds + byteLen cs ≤ N → ∃ t', writeFmt [.arg o (fun o => s.display sink o)] t = (.ok (), t') ∧
      Holds t' (ds ++ cs)) ∧
    (N < byteLen ds + byteLen cs → writeFmt [.arg o (fun o => s.display sink o)] t = (.err {}, t)) := by
  simp only [writeFmt, Fmt.write, M.bind_apply, C32_display (ω := ArrayString N) _ _ s cs hs]
  constructor
  · intro h
    obtain ⟨t', e, h'⟩ := writeStr_ok ValidCapacity.le ht h
    exact ⟨t', by simp [sink, e], h'⟩
  · intro h
    simp [sink, writeStr_err ValidCapacity.le ht h]

/-- C32, refutation: a `str` with the same text obeys the width, `ArrayString` does not. -/
theorem C32_refuted : ¬ (∀ (o : FmtOpts) (s : ArrayString 8) (cs : List Char), Holds s cs →
    s.display collect o [] = Fmt.pad collect o (utf8 cs) []) := by
  intro h
  have := h { width := some 5 } sample _ sample_holds
  rw [C32_display _ _ _ _ sample_holds] at this
  revert this
  decide

/-! ## Extend, Add -/

/-- C42: for every iterator of characters, finite or not, `extend` stops after pulling at most `N`
characters `w` and once more, and appends the longest prefix of `w` that fits the free space. -/
theorem C42_extend_chars (s : ArrayString N) (cs : List Char) (it : Iter κ Char) (k : κ) (hs : Holds s cs) :
    ∃ w k1, Yields it k w k1 ∧ byteLen w ≤ N ∧ w.length ≤ N ∧
      ((∃ (s' : ArrayString N) (k2 : κ) (pre : List Char),
          (it k1 = .done k2 ∨ ∃ c, it k1 = .item c k2 ∧ N < byteLen w + c.utf8Size) ∧
          (extendChars it k : M (ArrayString N) ε κ) s = (.ok k2, s') ∧ Holds s' (cs ++ pre) ∧
          LongestFit (N - byteLen cs) w pre) ∨
       (it k1 = .panic ∧ (extendChars it k : M (ArrayString N) ε κ) s = (.panic, s))) := by
  obtain ⟨w, k1, hy, hb, hl, h⟩ := C42_chars (N := N) (ε := ε) it k
  refine ⟨w, k1, hy, hb, hl, ?_⟩
  rcases h with ⟨t, k2, hk, e, ht⟩ | ⟨hp, e⟩
  · obtain ⟨s', e2, h2⟩ := extendChars_of (ε := ε) ValidCapacity.le hs e ht
    exact .inl ⟨s', k2, _, hk, e2, h2, longestFit_takeFit _ _⟩
  · exact .inr ⟨hp, extendChars_panic e⟩

/-- An endless supply of the letter `a`; the state counts the calls. -/
def endlessA : Iter Nat Char := fun n => .item 'a' (n + 1)

theorem yields_endlessA {n m : Nat} {w : List Char} (h : Yields endlessA n w m) :
    m = n + w.length ∧ w = List.replicate w.length 'a' := by
  induction h with
  | nil => simp
  | cons e _ ih =>
    simp only [endlessA, Step.item.injEq] at e
    obtain ⟨rfl, rfl⟩ := e
    exact ⟨by simp only [List.length_cons]; omega, congrArg ('a' :: ·) ih.2⟩

theorem byteLen_replicate_a (n : Nat) : byteLen (List.replicate n 'a') = n := by
  induction n with
  | zero => rfl
  | succ n ih => simp [List.replicate_succ, ih, show 'a'.utf8Size = 1 from rfl]; omega

theorem takeFit_replicate_a (r n : Nat) : takeFit r (List.replicate n 'a') = List.replicate (min r n) 'a' := by
  induction n generalizing r with
  | zero => simp [takeFit]
  | succ n ih =>
    cases r with
    | zero => simp [List.replicate_succ, takeFit, show 'a'.utf8Size = 1 from rfl]
    | succ r => simp [List.replicate_succ, takeFit, show 'a'.utf8Size = 1 from rfl, ih, Nat.succ_min_succ]

/-- C42: `extend` gathers up to a whole capacity before it looks at the free space.  From an endless
supply of one-byte characters it always takes `N + 1`, even if nothing can be appended; what does not
fit is lost. -/
theorem C42_extend_pulls (s : ArrayString N) (cs : List Char) (hs : Holds s cs) :
    ∃ s' : ArrayString N, (extendChars endlessA 0 : M (ArrayString N) ε Nat) s = (.ok (N + 1), s') ∧
      Holds s' (cs ++ List.replicate (N - byteLen cs) 'a') := by
  obtain ⟨w, k1, hy, hb, hl, h⟩ := C42_extend_chars (ε := ε) s cs endlessA 0 hs
  obtain ⟨h1, h2⟩ := yields_endlessA hy
  rcases h with ⟨s', k2, pre, hk, e, hh, hf⟩ | ⟨hp, -⟩
  · rcases hk with hk | ⟨c, hk, hc⟩
    · simp [endlessA] at hk
    · simp only [endlessA, Step.item.injEq] at hk
      obtain ⟨rfl, rfl⟩ := hk
      have hc1 : 'a'.utf8Size = 1 := rfl
      rw [h2, byteLen_replicate_a] at hc
      have hw : w.length = N := by omega
      refine ⟨s', by rw [e, show k1 = N by omega], ?_⟩
      rw [longestFit_iff.1 hf, h2, hw, takeFit_replicate_a, show min (N - byteLen cs) N = N - byteLen cs by omega] at hh
      exact hh
  · simp [endlessA] at hp

/-- C42, C33 and C43 for an arbitrary iterator of strings, whose items may even answer `as_ref` differently the
second time: `extend` gathers the pieces `ps` that fit a whole capacity and the fitting part of (the second answer
of) the next one, then appends the longest prefix of that which fits the free space.  If the iterator panics first,
or goes on for ever, so does `extend`, and the string is as it was. -/
theorem C42_extend_strs (s : ArrayString N) (cs : List Char) (it : Iter κ AsRefTwice) (ht : TextItems it) (k : κ)
    (hs : Holds s cs) :
    (∃ (ps : List (List Char × List Char)) (k1 : κ),
      Yields it k (ps.map fun p => ⟨utf8 p.1, utf8 p.2⟩) k1 ∧ byteLen (ps.map Prod.fst).flatten ≤ N ∧
      ((∃ (s' : ArrayString N) (k2 : κ) (pre : List Char), it k1 = .done k2 ∧
          (extendStrs it k : M (ArrayString N) ε κ) s = (.ok k2, s') ∧ Holds s' (cs ++ pre) ∧
          LongestFit (N - byteLen cs) (ps.map Prod.fst).flatten pre) ∨
       (∃ (s' : ArrayString N) (k2 : κ) (w w' fit pre : List Char), it k1 = .item ⟨utf8 w, utf8 w'⟩ k2 ∧
          N < byteLen (ps.map Prod.fst).flatten + byteLen w ∧
          LongestFit (N - byteLen (ps.map Prod.fst).flatten) w' fit ∧
          (extendStrs it k : M (ArrayString N) ε κ) s = (.ok k2, s') ∧ Holds s' (cs ++ pre) ∧
          LongestFit (N - byteLen cs) ((ps.map Prod.fst).flatten ++ fit) pre) ∨
       (it k1 = .panic ∧ (extendStrs it k : M (ArrayString N) ε κ) s = (.panic, s)))) ∨
    (Endless it N k ∧ (extendStrs it k : M (ArrayString N) ε κ) s = (.diverge, s)) := by
  rcases C42_strs (N := N) (ε := ε) it ht k with ⟨ps, k1, hy, hb, h⟩ | ⟨hE, e⟩
  · refine .inl ⟨ps, k1, hy, hb, ?_⟩
    rcases h with ⟨t, k2, hk, e, h⟩ | ⟨t, k2, w, w', fit, hk, ho, e, h, hf⟩ | ⟨hk, e⟩
    · obtain ⟨s', e2, h2⟩ := extendStrs_of (ε := ε) ValidCapacity.le hs e h
      exact .inl ⟨s', k2, _, hk, e2, h2, longestFit_takeFit _ _⟩
    · obtain ⟨s', e2, h2⟩ := extendStrs_of (ε := ε) ValidCapacity.le hs e h
      exact .inr (.inl ⟨s', k2, w, w', fit, _, hk, ho, hf, e2, h2, longestFit_takeFit _ _⟩)
    · exact .inr (.inr ⟨hk, extendStrs_panic e⟩)
  · refine .inr ⟨hE, ?_⟩
    unfold extendStrs
    simp [M.bind_apply, e]

/-- C42: over strings, `extend` stops when no piece is empty. -/
theorem C42_extend_strs_nonempty (s : ArrayString N) (cs : List Char) (it : Iter κ AsRefTwice) (ht : TextItems it)
    (hne : ∀ k w w' k', it k = .item ⟨utf8 w, utf8 w'⟩ k' → w ≠ []) (k : κ) (hs : Holds s cs) :
    ((extendStrs it k : M (ArrayString N) ε κ) s).1 ≠ .diverge := by
  rcases C42_extend_strs (ε := ε) s cs it ht k hs with ⟨ps, k1, -, -, h⟩ | ⟨hE, -⟩
  · rcases h with ⟨s', k2, pre, -, e, -⟩ | ⟨s', k2, w, w', fit, pre, -, -, -, e, -⟩ | ⟨-, e⟩ <;> rw [e] <;> simp
  · exact (endless_nonempty hne hE).elim

/-- C42: an endless supply of one text, not empty, fills the free space with it. -/
theorem C42_extend_endless (s : ArrayString N) (cs w : List Char) (hs : Holds s cs) (hw : w ≠ []) :
    ∃ (s' : ArrayString N) (n : Nat) (pre : List Char),
      (extendStrs (fun (_ : Unit) => .item (honest w) ()) () : M (ArrayString N) ε Unit) s = (.ok (), s') ∧
      Holds s' (cs ++ pre) ∧ N < n * byteLen w ∧
      LongestFit (N - byteLen cs) (List.replicate n w).flatten pre := by
  have ht : TextItems (fun (_ : Unit) => .item (honest w) ()) :=
    fun _ _ _ h => ⟨w, w, by simp only [Step.item.injEq] at h; exact h.1.symm⟩
  have hps : ∀ {ps : List (List Char × List Char)} {k : Unit},
      Yields (fun (_ : Unit) => .item (honest w) ()) () (ps.map fun p => ⟨utf8 p.1, utf8 p.2⟩) k →
      ps.map Prod.fst = List.replicate ps.length w := by
    intro ps k h
    induction ps generalizing k with
    | nil => rfl
    | cons p ps ih =>
      cases h with
      | cons e h =>
        simp only [honest, Step.item.injEq, AsRefTwice.mk.injEq] at e
        rw [List.map_cons, List.length_cons, List.replicate_succ, ih h, ← utf8_injective e.1.1]
  rcases C42_extend_strs (ε := ε) s cs _ ht () hs with ⟨ps, k1, hy, hb, h⟩ | ⟨hE, -⟩
  · rcases h with ⟨s', k2, pre, e, -⟩ | ⟨s', k2, v, v', fit, pre, hk, ho, hf, e, hh, hp⟩ | ⟨e, -⟩
    · cases e
    · simp only [honest, Step.item.injEq, AsRefTwice.mk.injEq] at hk
      obtain ⟨⟨h1, h2⟩, -⟩ := hk
      have h1 := utf8_injective h1
      have h2 := utf8_injective h2
      subst h1 h2
      have hps := hps hy
      rw [hps] at ho hf hp hb
      have hlen : byteLen (List.replicate (ps.length + 1) w).flatten = (ps.length + 1) * byteLen w := by
        generalize ps.length + 1 = n
        induction n with
        | zero => simp
        | succ n ih => simp [List.replicate_succ, ih, Nat.succ_mul]; omega
      have hrep : (List.replicate (ps.length + 1) w).flatten = (List.replicate ps.length w).flatten ++ w := by
        rw [List.replicate_succ', List.flatten_append]; simp
      refine ⟨s', ps.length + 1, pre, e, hh, ?_, ?_⟩
      · rw [← hlen, hrep, byteLen_append]; exact ho
      · rw [hrep]
        have := longestFit_iff.1 hf
        have h3 := longestFit_iff.1 hp
        rw [longestFit_iff, h3, this, takeFit_append, takeFit_append]
        split
        · congr 1
          rw [takeFit_takeFit (by omega)]
        · rfl
    · cases e
  · refine (endless_nonempty (fun k v v' k' h => ?_) hE).elim
    simp only [honest, Step.item.injEq, AsRefTwice.mk.injEq] at h
    rw [← utf8_injective h.1.1]; exact hw

example : LongestFit (8 - byteLen ['h', 'é', ' ']) (List.replicate 3 ['a', '€']).flatten ['a', '€'] :=
  ⟨['a', '€', 'a', '€'], rfl, by decide, by intro c r h; cases h; decide⟩

theorem yields_cloned {l k : List (Ref Char)} {w : List Char} (h : Yields (cloned listIter) l w k) :
    l.map Ref.val = w ++ k.map Ref.val := by
  induction h with
  | nil => rfl
  | @cons l l' k a w e _ ih =>
    cases l with
    | nil => simp [cloned, listIter] at e
    | cons r l =>
      simp only [cloned, listIter, Step.item.injEq] at e
      obtain ⟨rfl, rfl⟩ := e
      simp [ih]

theorem yields_of_cloned {it : Iter κ (Ref Char)} {k k' : κ} {w : List Char}
    (h : Yields (cloned it) k w k') : Yields it k (w.map Ref.mk) k' := by
  induction h with
  | nil => exact .nil _
  | @cons k k1 k2 a w e _ ih =>
    unfold cloned at e
    split at e
    · next e' => cases e; exact .cons e' ih
    · cases e
    · cases e

/-- C42: `Extend<&char>` for every iterator of references, finite or not: it stops after pulling at
most `N` of them and once more, and panics exactly if the iterator does until then. -/
theorem C42_extend_refs (s : ArrayString N) (cs : List Char) (it : Iter κ (Ref Char)) (k : κ)
    (hs : Holds s cs) :
    ∃ w k1, Yields it k (w.map Ref.mk) k1 ∧ byteLen w ≤ N ∧ w.length ≤ N ∧
      ((∃ (s' : ArrayString N) (k2 : κ) (pre : List Char),
          (it k1 = .done k2 ∨ ∃ r, it k1 = .item r k2 ∧ N < byteLen w + r.val.utf8Size) ∧
          (extendCharRefs it k : M (ArrayString N) ε κ) s = (.ok k2, s') ∧ Holds s' (cs ++ pre) ∧
          LongestFit (N - byteLen cs) w pre) ∨
       (it k1 = .panic ∧ (extendCharRefs it k : M (ArrayString N) ε κ) s = (.panic, s))) := by
  obtain ⟨w, k1, hy, hb, hl, h⟩ := C42_extend_chars (ε := ε) s cs (cloned it) k hs
  refine ⟨w, k1, yields_of_cloned hy, hb, hl, ?_⟩
  rcases h with ⟨s', k2, pre, hk, e, hh, hf⟩ | ⟨hp, e⟩
  · refine .inl ⟨s', k2, pre, ?_, e, hh, hf⟩
    unfold cloned at hk
    cases hi : it k1 <;> simp [hi] at hk
    · rw [hk]; exact .inl rfl
    · obtain ⟨c, ⟨rfl, rfl⟩, hc⟩ := hk
      exact .inr ⟨_, rfl, hc⟩
  · refine .inr ⟨?_, e⟩
    unfold cloned at hp
    cases hi : it k1 <;> simp [hi] at hp
    rfl

/-- An iterator of references that panics on its second call. -/
def refThenPanic : Iter Bool (Ref Char) := fun b => if b then .panic else .item ⟨'a'⟩ true

example : ((extendCharRefs refThenPanic false : M (ArrayString 8) Empty Bool) sample).1 = .panic := by
  obtain ⟨w, k1, hy, -, -, h⟩ := C42_extend_refs (ε := Empty) sample _ refThenPanic false sample_holds
  have hw : ∀ {l k k1}, Yields refThenPanic k l k1 → l = [] ∨ k1 = true := by
    intro l k k1 h
    induction h with
    | nil => exact .inl rfl
    | @cons k k' k'' a l e _ ih =>
      cases k <;> simp [refThenPanic] at e
      obtain ⟨-, rfl⟩ := e
      rename_i h
      cases h with
      | nil => exact .inr rfl
      | cons e => simp [refThenPanic] at e
  rcases h with ⟨s', k2, pre, hk, -⟩ | ⟨-, e⟩
  · cases k1 <;> simp [refThenPanic] at hk
    obtain ⟨r, ⟨rfl, -⟩, hc⟩ := hk
    rcases hw hy with h | h
    · rw [List.map_eq_nil_iff.1 h] at hc
      simp [show 'a'.utf8Size = 1 from rfl] at hc
    · cases h
  · rw [e]

/-- C33: `Extend<&char>`. -/
theorem C33_extend_refs (s : ArrayString N) (cs w : List Char) (hs : Holds s cs) :
    ∃ (s' : ArrayString N) (k : List (Ref Char)) (pre : List Char),
      (extendCharRefs listIter (w.map Ref.mk) : M (ArrayString N) ε _) s = (.ok k, s') ∧
      Holds s' (cs ++ pre) ∧ LongestFit (N - byteLen cs) w pre := by
  obtain ⟨u, k1, hy, -, -, h⟩ := C42_extend_chars (ε := ε) s cs (cloned listIter) (w.map Ref.mk) hs
  have hw := yields_cloned hy
  simp only [List.map_map, Function.comp_def, List.map_id'] at hw
  rcases h with ⟨s', k2, pre, hk, e, hh, post, h1, h2, h3⟩ | ⟨hp, -⟩
  · refine ⟨s', k2, pre, e, hh, post ++ k1.map Ref.val, by simp [hw, h1], h2, ?_⟩
    intro c rest hc
    cases post with
    | cons d post => simp at hc; exact h3 c post (by rw [hc.1])
    | nil =>
      simp only [List.append_nil] at h1
      subst h1
      cases k1 with
      | nil => simp at hc
      | cons r k1 =>
        simp at hc
        rcases hk with hk | ⟨d, hk, hd⟩
        · simp [cloned, listIter] at hk
        · simp only [cloned, listIter, Step.item.injEq] at hk
          rw [← hc.1, hk.1]; omega
  · cases k1 <;> simp [cloned, listIter] at hp

/-- C33: `Extend<char>` and `Extend<&str>` over finite sequences. -/
theorem C33_extend (s : ArrayString N) (cs : List Char) (hs : Holds s cs) :
    (∀ w : List Char, ∃ (s' : ArrayString N) (k pre : List Char),
      (extendChars listIter w : M (ArrayString N) ε _) s = (.ok k, s') ∧
      Holds s' (cs ++ pre) ∧ LongestFit (N - byteLen cs) w pre) ∧
    (∀ ws : List (List Char), ∃ (s' : ArrayString N) (k : List AsRefTwice) (pre : List Char),
      (extendStrs listIter (ws.map honest) : M (ArrayString N) ε _) s = (.ok k, s') ∧
      Holds s' (cs ++ pre) ∧ LongestFit (N - byteLen cs) ws.flatten pre) := by
  constructor
  · intro w
    obtain ⟨s', k, e, h⟩ := extendChars_list (ε := ε) ValidCapacity.le hs w
    exact ⟨s', k, _, e, h, longestFit_takeFit _ _⟩
  · intro ws
    obtain ⟨s', k, e, h⟩ := extendStrs_list (ε := ε) ValidCapacity.le hs ws
    exact ⟨s', k, _, e, h, longestFit_takeFit _ _⟩

/-- C34. -/
theorem C34_add (s : ArrayString N) (cs w : List Char) (hs : Holds s cs) :
    ∃ (s' : ArrayString N) (pre : List Char), (s.add (utf8 w) : Res ε _) = .ok s' ∧ Holds s' (cs ++ pre) ∧
      LongestFit (N - byteLen cs) w pre ∧
      (pushStrTruncate (utf8 w) : M (ArrayString N) ε Unit) s = (.ok (), s') := by
  obtain ⟨s', e, h⟩ := pushStrTruncate_ok (ε := ε) ValidCapacity.le w hs
  refine ⟨s', _, ?_, h, longestFit_takeFit _ _, e⟩
  unfold add M.onLocal
  rw [e]; rfl

/-! ## Indexing -/

omit [ValidCapacity N] in
/-- C35: the slice exactly when both ends are character boundaries in order, a panic otherwise. -/
theorem C35_index (s : ArrayString N) (cs : List Char) (i : IdxU8) (hs : Holds s cs) :
    (∀ p m q, SliceAt cs (idxRange (byteLen cs) i) p m q → (s.index i : Res ε Bytes) = .ok (utf8 m)) ∧
    (¬ SliceOk cs (idxRange (byteLen cs) i) → (s.index i : Res ε Bytes) = .panic) :=
  ⟨fun _ _ _ h => index_ok hs h, index_panic hs⟩

/-- C35: the two cases are exhaustive. -/
theorem C35_cases (cs : List Char) (r : Nat × Nat) : SliceOk cs r ↔ ∃ p m q, SliceAt cs r p m q := sliceOk_iff

/-- C35, disagreement with `str`: an exhausted `RangeInclusive` denotes an empty slice for `str`, but
the code rebuilds the range and loses that. -/
theorem C35_exhausted : (sample.index (.inclusive 0 0 true) : Res Unit Bytes) = .ok (utf8 ['h']) ∧
    (IdxUsize.inclusive 0 0 true).resolve 4 = some (1, 1) := by
  constructor
  · exact index_ok sample_holds (p := []) (m := ['h']) (q := ['é', ' ']) ⟨rfl, rfl, rfl⟩
  · have h := u8_lt_usizeMax 0
    simp only [UInt8.toNat_zero] at h
    simp [IdxUsize.resolve, h]

example : SliceAt ['h', 'é', ' '] (idxRange 4 (.inclusive 1 2 false)) ['h'] ['é'] [' '] := ⟨rfl, rfl, rfl⟩
example : ¬ SliceOk ['h', 'é', ' '] (idxRange 4 (.inclusive 1 1 false)) := by
  rintro ⟨-, -, h⟩; revert h; decide
example : ¬ SliceOk ['h', 'é', ' '] (idxRange 4 (.toInclusive 255)) := by
  rintro ⟨-, -, h⟩; revert h; decide

omit [ValidCapacity N] in
/-- C36: editing the slice `m` (at a valid range) into `m'` of the same byte length changes exactly
that slice; also nothing past the text is touched. -/
theorem C36_index_mut (s : ArrayString N) (cs : List Char) (i : IdxU8) (edit : Bytes → Bytes) (hs : Holds s cs) :
    (∀ p m q m', SliceAt cs (idxRange (byteLen cs) i) p m q → edit (utf8 m) = utf8 m' → byteLen m' = byteLen m →
      ∃ s' : ArrayString N, (indexMut i edit : M (ArrayString N) ε Unit) s = (.ok (), s') ∧
        Holds s' (p ++ m' ++ q) ∧ s'.len = s.len ∧ s'.array.drop s.len = s.array.drop s.len) ∧
    (¬ SliceOk cs (idxRange (byteLen cs) i) →
      (indexMut i edit : M (ArrayString N) ε Unit) s = (.panic, s)) := by
  refine ⟨fun p m q m' h he hl => ?_, indexMut_panic hs⟩
  obtain ⟨s', e, h1, h2, h3⟩ := indexMut_ok (ε := ε) hs h he hl
  exact ⟨s', e, h1, congrArg UInt8.toNat h2, h3⟩

omit [ValidCapacity N] in
/-- C36: editing the whole text in place. -/
theorem C36_as_mut_str (s : ArrayString N) (cs cs' : List Char) (edit : Bytes → Bytes) (hs : Holds s cs)
    (he : edit (utf8 cs) = utf8 cs') (hl : byteLen cs' = byteLen cs) :
    ∃ s' : ArrayString N, (asMutStr edit : M (ArrayString N) ε Unit) s = (.ok (), s') ∧ Holds s' cs' ∧
      s'.len = s.len ∧ s'.array.drop s.len = s.array.drop s.len := by
  obtain ⟨e, h⟩ := asMutStr_ok (ε := ε) hs he hl
  refine ⟨_, e, h, rfl, ?_⟩
  rw [hs.len, List.drop_left' (by simp [hl])]

omit [ValidCapacity N] in
/-- C36: `as_mut`, `borrow_mut` and `deref_mut` give the same text to edit as `as_mut_str`. -/
theorem C36_same (edit : Bytes → Bytes) :
    (asMut edit : M (ArrayString N) ε Unit) = asMutStr edit ∧
    (borrowMut edit : M (ArrayString N) ε Unit) = asMutStr edit ∧
    (derefMut edit : M (ArrayString N) ε Unit) = asMutStr edit := ⟨rfl, rfl, rfl⟩

/-- `u8::to_ascii_uppercase`. -/
def asciiUpperByte (b : UInt8) : UInt8 := if 97 ≤ b.toNat ∧ b.toNat ≤ 122 then b - 32 else b
/-- `char::to_ascii_uppercase`. -/
def asciiUpperChar (c : Char) : Char := if 97 ≤ c.toNat ∧ c.toNat ≤ 122 then Char.ofNat (c.toNat - 32) else c

theorem asciiUpper_encode (c : Char) : (String.utf8EncodeChar c).map asciiUpperByte =
    String.utf8EncodeChar (asciiUpperChar c) := by
  have hr := toNat_range c
  unfold asciiUpperChar
  split
  · rename_i h
    have hv : (Char.ofNat (c.toNat - 32)).toNat = c.toNat - 32 :=
      toNat_ofNat _ (.inl (by omega))
    unfold String.utf8EncodeChar
    simp only [show c.val.toNat = c.toNat from rfl, show (Char.ofNat (c.toNat - 32)).val.toNat = _ from hv]
    rw [if_pos (by omega), if_pos (by omega)]
    simp only [List.map_cons, List.map_nil, asciiUpperByte, UInt8.toNat_ofNat']
    rw [if_pos (by omega)]
    congr 1
    apply UInt8.toNat.inj
    rw [UInt8.toNat_sub_of_le _ _ (by rw [UInt8.le_iff_toNat_le]; simp; omega)]
    simp; omega
  · rename_i h
    unfold String.utf8EncodeChar
    simp only [show c.val.toNat = c.toNat from rfl]
    generalize c.toNat = v at *
    (repeat' split) <;>
      simp only [List.map_cons, List.map_nil, asciiUpperByte, UInt8.toNat_ofNat'] <;>
      (repeat (rw [if_neg (by omega)]))

theorem asciiUpper_utf8 (cs : List Char) : (utf8 cs).map asciiUpperByte = utf8 (cs.map asciiUpperChar) := by
  induction cs with
  | nil => rfl
  | cons c cs ih => simp [asciiUpper_encode, ih]

omit [ValidCapacity N] in
/-- C36 for a method of `str` reached through `DerefMut`: `make_ascii_uppercase`. -/
theorem C36_make_ascii_uppercase (s : ArrayString N) (cs : List Char) (hs : Holds s cs) :
    ∃ s' : ArrayString N, (asMutStr (·.map asciiUpperByte) : M (ArrayString N) ε Unit) s = (.ok (), s') ∧
      Holds s' (cs.map asciiUpperChar) := by
  have hl : byteLen (cs.map asciiUpperChar) = byteLen cs := by
    rw [← length_utf8, ← asciiUpper_utf8]; simp
  obtain ⟨s', e, h, -⟩ := C36_as_mut_str (ε := ε) s cs _ _ hs (asciiUpper_utf8 cs) hl
  exact ⟨s', e, h⟩

example : ['h', 'é', ' '].map asciiUpperChar = ['H', 'é', ' '] := by decide

/-! ## Errors -/

/-- C41: conversions keep the kind of error. -/
theorem C41_conversions (a : Utf8) (b : Utf16) (c : OutOfBounds) (d : StdUtf8Error) (e : DecodeUtf16Error)
    (f : EncodeUtf16) :
    (ErrFrom.from_ a : Error) = .utf8 ∧ (ErrFrom.from_ b : Error) = .utf16 ∧ (ErrFrom.from_ c : Error) = .outOfBounds ∧
    (ErrFrom.from_ d : Error) = .utf8 ∧ (ErrFrom.from_ e : Error) = .utf16 ∧
    (ErrFrom.from_ (ErrFrom.from_ d : Utf8) : Error) = ErrFrom.from_ d ∧
    (ErrFrom.from_ (ErrFrom.from_ e : Utf16) : Error) = ErrFrom.from_ e ∧
    (ErrFrom.from_ f : Error) = .utf16 ∧ (ErrFrom.from_ (ErrFrom.from_ f : Utf16) : Error) = ErrFrom.from_ f :=
  ⟨rfl, rfl, rfl, rfl, rfl, rfl, rfl, rfl, rfl⟩

/-- C41: `==` on errors is exactly equality, hence an equivalence. -/
theorem C41_eq (a b : Error) : a.eq b = decide (a = b) := by cases a <;> cases b <;> rfl

/-- C41: hashing agrees with equality, and tells the kinds apart. -/
theorem C41_hash (a b : Error) (h x y : Bytes) :
    (a.eq b → ∀ (η : Type) (H : Hasher η) (h : η), a.hash H h = b.hash H h) ∧
    (a.hash traceHasher h ++ x = b.hash traceHasher h ++ y → a = b ∧ x = y) := by
  constructor
  · intro e η H h
    rw [C41_eq] at e
    simp at e; rw [e]
  · intro e
    have key : ∀ a : Error, ∃ cs, (∀ h, a.hash traceHasher h = h ++ utf8 cs ++ [0xff]) ∧
        cs = (match a with | .utf8 => "Utf8" | .utf16 => "Utf16" | .outOfBounds => "OutOfBounds").toList := by
      intro a; cases a <;> exact ⟨_, fun h => rfl, rfl⟩
    obtain ⟨cs, h1, h2⟩ := key a
    obtain ⟨ds, h3, h4⟩ := key b
    rw [h1, h3] at e
    simp only [List.append_assoc, List.append_cancel_left_eq, List.cons_append, List.nil_append] at e
    obtain ⟨e1, e2⟩ := terminated_injective e
    refine ⟨?_, e2⟩
    subst e1
    rw [h2] at h4
    revert h4
    cases a <;> cases b <;> decide

/-- C41: what the errors print; each kind has its own text, also as a struct. -/
theorem C41_display (o : FmtOpts) (a : Utf8) (b : Utf16) (c : OutOfBounds) :
    (∀ e : Error, e.display collect o [] = (.ok (), lit (match e with
      | .utf8 => "Utf8" | .utf16 => "Utf16" | .outOfBounds => "OutOfBounds"))) ∧
    (∀ e : Error, e.debug collect o [] = (.ok (), lit (match e with
      | .utf8 => "Error::Utf8" | .utf16 => "Error::Utf16" | .outOfBounds => "Error::OutOfBounds"))) ∧
    a.display collect o [] = Error.utf8.display collect o [] ∧
    b.display collect o [] = Error.utf16.display collect o [] ∧
    c.display collect o [] = Error.outOfBounds.display collect o [] ∧
    a.debug collect o [] = Error.utf8.display collect o [] ∧
    b.debug collect o [] = Error.utf16.display collect o [] ∧
    c.debug collect o [] = Error.outOfBounds.display collect o [] ∧
    (∀ e e' : Error, e.display collect o [] = e'.display collect o [] → e = e') ∧
    (∀ e e' : Error, e.debug collect o [] = e'.debug collect o [] → e = e') := by
  refine ⟨?_, ?_, rfl, rfl, rfl, rfl, rfl, rfl, ?_, ?_⟩
  · intro e; cases e <;> rfl
  · intro e; cases e <;> rfl
  · have h : ∀ e : Error, e.display collect o [] = e.display collect {} [] := by intro e; cases e <;> rfl
    intro e e'
    rw [h e, h e']
    cases e <;> cases e' <;> decide
  · have h : ∀ e : Error, e.debug collect o [] = e.debug collect {} [] := by intro e; cases e <;> rfl
    intro e e'
    rw [h e, h e']
    cases e <;> cases e' <;> decide

/-! ## Panicking callbacks -/

/-- C43: if the predicate panics at some character, `retain` panics and the string is as before. -/
theorem C43_retain (s : ArrayString N) (cs : List Char) (f : Pred φ) (q : φ) (hs : Holds s cs)
    (h : keep f q cs = none) : (retain f q : M (ArrayString N) ε φ) s = (.panic, s) :=
  retain_panic ValidCapacity.le hs h

/-- A predicate that panics on the second character. -/
example : keep (fun (n : Nat) _ => if n = 1 then none else some (true, n + 1)) 0 ['h', 'é', ' '] = none := by decide

/-- C43: whatever the iterator of characters, `extend` either appends to the text what `C42_extend_chars` says, or
panics (because the iterator did) leaving the string as it was. -/
theorem C43_extend_chars (s : ArrayString N) (cs : List Char) (it : Iter κ Char) (k : κ) (hs : Holds s cs) :
    (∃ (s' : ArrayString N) (k' k1 : κ) (w pre : List Char), Yields it k w k1 ∧
      (extendChars it k : M (ArrayString N) ε κ) s = (.ok k', s') ∧ Holds s' (cs ++ pre) ∧
      LongestFit (N - byteLen cs) w pre) ∨
    ((∃ w k1, Yields it k w k1 ∧ it k1 = .panic) ∧ (extendChars it k : M (ArrayString N) ε κ) s = (.panic, s)) := by
  obtain ⟨w, k1, hy, hb, hl, h⟩ := C42_extend_chars (ε := ε) s cs it k hs
  rcases h with ⟨s', k2, pre, -, e, hh, hf⟩ | ⟨hp, e⟩
  · exact .inl ⟨s', k2, k1, w, pre, hy, e, hh, hf⟩
  · exact .inr ⟨⟨w, k1, hy, hp⟩, e⟩

/-- C43: over strings too, a call of `extend` that does not return leaves the whole string as it was. -/
theorem C43_extend_strs (s : ArrayString N) (cs : List Char) (it : Iter κ AsRefTwice) (ht : TextItems it) (k : κ)
    (hs : Holds s cs) (s' : ArrayString N) (r : Res ε κ) (e : extendStrs it k s = (r, s')) (hr : ∀ a, r ≠ .ok a) :
    s' = s ∧ (r = .panic ∧ (∃ l k1, Yields it k l k1 ∧ it k1 = .panic) ∨ r = .diverge ∧ Endless it N k) := by
  rcases C42_extend_strs (ε := ε) s cs it ht k hs with ⟨ps, k1, hy, -, h⟩ | ⟨hE, e'⟩
  · rcases h with ⟨t, k2, pre, -, e', -⟩ | ⟨t, k2, w, w', fit, pre, -, -, -, e', -⟩ | ⟨hp, e'⟩ <;> rw [e] at e' <;> cases e'
    · exact absurd rfl (hr _)
    · exact absurd rfl (hr _)
    · exact ⟨rfl, .inl ⟨rfl, _, k1, hy, hp⟩⟩
  · rw [e] at e'; cases e'
    exact ⟨rfl, .inr ⟨rfl, hE⟩⟩

omit [ValidCapacity N] in
/-- C51: what `Debug` prints depends on the text only (never on bytes past the length), for every
formatter, option and way to print `str` and `u8`. -/
theorem C51_debug_text (dbgStr : Bytes → Fmt.Dbg) (dbgU8 : UInt8 → Fmt.Dbg) (s t : ArrayString N) (cs : List Char)
    (hs : Holds s cs) (ht : Holds t cs) (sk : Sink ω) (o : FmtOpts) :
    s.debug dbgStr dbgU8 sk o = t.debug dbgStr dbgU8 sk o := by
  have h : s.size = t.size := UInt8.toNat.inj (hs.len.trans ht.len.symm)
  funext w
  simp only [ArrayString.debug, M.bind_apply, M.lift_apply, hs.asStr, ht.asStr, h]

end Verif
