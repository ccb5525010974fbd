import Verif.Proofs.AsRef
import Verif.Props.Logs

/-!
# Properties of arguments `impl AsRef<str>`

A caller's `as_ref` is safe code that may do anything: answer another text each time, panic, never
return, change the state of the world.  `AsRefStr W` is such an argument.
-/

namespace Verif
open Spec Logged

variable {W : Type} {N : Nat}

/-! ## The logs feature and the world -/

/-- C53: whatever relation between earlier and later worlds the logger keeps to, every history keeps to
it: calls change the world only through the logger.  (For any string, valid or not.) -/
theorem C53_world (K : W → W → Prop) (hr : ∀ w, K w w) (ht : ∀ {u v w}, K u v → K v w → K u w) (E : Env W)
    (hE : LogKeeps K E) (ops : List Op) (s : ArrayString N) (w : W) : K w (Logged.runOps E ops (s, w)).2.2 := by
  have : Steady K := ⟨hr, ht⟩
  induction ops generalizing s w with
  | nil => exact hr w
  | cons op ops ih => exact ht (keeps_exec hE op (s, w)) (ih _ _)

/-- The messages written down are only added to. -/
example (d : Bool) (ops : List Op) (s : ArrayString N) (log : List Bytes) :
    log <+: (Logged.runOps (collector d) ops (s, log)).2.2 := by
  refine C53_world _ (fun w => ⟨[], by simp⟩) (fun h1 h2 => h1.trans h2) _ ?_ ops s log
  intro lvl _ message h w
  have h := h w
  simp only [collector]
  rw [bind_fst_snd]
  rcases hw : message w with ⟨r, u⟩
  rw [hw] at h
  cases r with
  | ok b => exact h.trans ⟨[b], rfl⟩
  | _ => exact h

/-- C53: with the feature on but no level enabled, calls do what they do without the feature, and
nothing else. -/
theorem C53_disabled [ValidCapacity N] (E : Env W) (hE : Off E) (ops : List Op) (hops : ∀ op ∈ ops, op.Ok)
    (s : ArrayString N) (cs : List Char) (hs : Holds s cs) (w : W) :
    Logged.runOps E ops (s, w) = ((runOps ops s).1, (runOps ops s).2, w) := by
  obtain ⟨h1, h2⟩ := C53_transparent E (quiet_of_off hE) ops hops s cs hs w
  have h3 := C53_world Eq (fun _ => rfl) Eq.trans E (logKeeps_of_off hE) ops s w
  exact Prod.ext h1 (Prod.ext h2 h3.symm)

example : Off (listener false) ∧ ¬ Off (listener true) :=
  ⟨fun _ _ => rfl, fun h => by have := h .debug true; simp [listener] at this⟩

/-! ## Arguments -/

/-- C55: without the feature (or with no level enabled) each of these methods asks its argument for the
text exactly once and does with the answer what it does with that `&str`; if the argument does not
return, the string is as it was.  `try_insert_str` does not ask at all if the index is past the end. -/
theorem C55_once [ValidCapacity N] (E : Env W) (hE : Off E) (a : AsRefStr W) (ha : Honest a)
    (s : ArrayString N) (cs : List Char) (hs : Holds s cs) (w : W) (r : RangeB) (i : Nat) (ε : Type) :
    Logged.tryPushStr E a (s, w) = askedOnce a ArrayString.tryPushStr (s, w) ∧
    Logged.pushStrTruncate E a (s, w) = askedOnce a (ArrayString.pushStrTruncate (ε := ε)) (s, w) ∧
    Logged.replaceRange E r a (s, w) = askedOnce a (ArrayString.replaceRange r) (s, w) ∧
    Logged.insertStrTruncate E i a (s, w) = askedOnce a (ArrayString.insertStrTruncate i) (s, w) ∧
    Logged.tryInsertStr E i a (s, w) =
      (if i ≤ byteLen cs then askedOnce a (ArrayString.tryInsertStr i) (s, w) else (.err .outOfBounds, s, w)) ∧
    (Logged.tryFromStr E a : M W _ (ArrayString N)) w =
      (do let b ← noErr a; M.lift (ArrayString.tryFromStr b) : M W _ (ArrayString N)) w ∧
    (Logged.fromStrTruncate E a : M W ε (ArrayString N)) w =
      (do let b ← noErr a; M.lift (ArrayString.fromStrTruncate b) : M W ε (ArrayString N)) w :=
  have hN := ValidCapacity.le (N := N)
  ⟨tryPushStr_off hE hN hs ha w, pushStrTruncate_off hE hN hs ha w, replaceRange_off hE hN hs ha r w,
    insertStrTruncate_off hE hN hs ha i w, tryInsertStr_off hE hN hs ha i w,
    tryFromStr_off hE hN ha w, fromStrTruncate_off hE hN ha w⟩

/-- An argument that counts how often it is asked, and answers that many letters `a`. -/
def countdown : AsRefStr Nat := fun n => (.ok (utf8 (List.replicate (n + 1) 'a')), n + 1)

/-- An argument that panics the second time it is asked. -/
def touchy : AsRefStr Nat := fun n => (if n = 1 then .panic else .ok (utf8 ['a']), n + 1)

/-- A logger of which the level debug is enabled, or none. -/
def loud (on : Bool) : Env Nat where
  debugAssertions := true
  enabled _ _ := on
  log _ message := do
    let _ ← message
    pure ()
  dbgStr b := b
  dbgUnits l := l.map fun u => UInt8.ofNat u.toNat

theorem honest_countdown : Honest countdown := fun _ _ h => by cases h; exact ⟨_, rfl⟩
theorem honest_touchy : Honest touchy := fun w b h => by
  simp only [touchy] at h
  split at h <;> cases h
  exact ⟨_, rfl⟩

example : Off (loud false) ∧ Honest countdown ∧ Honest touchy ∧
    (askedOnce countdown ArrayString.tryPushStr (sample, 0)).2.2 = 1 ∧
    (askedOnce touchy ArrayString.tryPushStr (sample, 1)) = (.panic, sample, 2) :=
  ⟨fun _ _ => rfl, honest_countdown, honest_touchy, rfl, rfl⟩

/-- C55: so do the constructors over iterators: the items are asked in turn, each once, until one does not
fit; that one `from_iterator_truncate` asks once more.  Nothing else is done to the world. -/
theorem C55_items [ValidCapacity N] (E : Env W) (hE : Off E) (w : W) (ε : Type) :
    (∀ k : Script (M W Empty (List Char)),
      (do
        let s ← (Logged.tryFromIterator E (k.map (Option.map answering)) : M W _ (ArrayString N))
        M.lift s.asStr : M W OutOfBounds Bytes) w = (do let t ← gatherInTurn N k; pure (utf8 t)) w) ∧
    ∀ k : Script (M W Empty (List Char) × M W Empty (List Char)),
      (do
        let s ← (Logged.fromIteratorTruncate E (k.map (Option.map (Prod.map answering answering))) : M W ε (ArrayString N))
        M.lift s.asStr : M W ε Bytes) w = (do let t ← fillInTurn N k; pure (utf8 t)) w :=
  have hN := ValidCapacity.le (N := N)
  ⟨fun k => tryFromIterator_off hE hN k w, fun k => fromIteratorTruncate_off hE hN k w⟩

/-- Test: three items that count how often they are asked, of one, two and three letters; the third does
not fit, and is asked once more by `from_iterator_truncate`. -/
example :
    let a : M Nat Empty (List Char) := fun n => (.ok (List.replicate (n + 1) 'a'), n + 1)
    gatherInTurn 5 [some a, some a, some a, none] 0 = (.err {}, 3) ∧
    gatherInTurn 6 [some a, some a, some a] 0 = (.ok (List.replicate 6 'a'), 3) ∧
    (fillInTurn 5 [some (a, a), some (a, a), some (a, a), none] : M Nat Error _) 0 = (.ok (List.replicate 5 'a'), 4) :=
  ⟨rfl, rfl, rfl⟩

/-- C55: with the feature on and a logger that returns, messages ask the argument too, and its answers
may differ.  The outcome of each method is that with one of the answers, or the argument did not return
and the string is as it was: never a mixture of two answers.  `try_insert_str` fails if the index is
past the end, whatever is answered. -/
theorem C55_any [ValidCapacity N] (E : Env W) (hE : Quiet E) (a : AsRefStr W) (ha : Honest a)
    (s : ArrayString N) (cs : List Char) (hs : Holds s cs) (w : W) (r : RangeB) (i : Nat) (ε : Type) :
    WithSomeAnswer a ArrayString.tryPushStr s (Logged.tryPushStr E a (s, w)) ∧
    WithSomeAnswer a (ArrayString.pushStrTruncate (ε := ε)) s (Logged.pushStrTruncate E a (s, w)) ∧
    WithSomeAnswer a (ArrayString.replaceRange r) s (Logged.replaceRange E r a (s, w)) ∧
    WithSomeAnswer a (ArrayString.insertStrTruncate i) s (Logged.insertStrTruncate E i a (s, w)) ∧
    (i ≤ byteLen cs → WithSomeAnswer a (ArrayString.tryInsertStr i) s (Logged.tryInsertStr E i a (s, w))) ∧
    (byteLen cs < i → (Logged.tryInsertStr E i a (s, w)).2.1 = s ∧
      ((Logged.tryInsertStr E i a (s, w)).1 = .err .outOfBounds ∨
        ∃ c, Falters a c ∧ (Logged.tryInsertStr E i a (s, w)).1 = c.toRes)) := by
  have hN := ValidCapacity.le (N := N)
  refine ⟨ends_tryPushStr hE hN hs ha w, ends_pushStrTruncate hE hN hs ha w, ends_replaceRange hE hN hs ha r w,
    ends_insertStrTruncate hE hN hs ha i w, fun hi => ?_, fun hi => ?_⟩
  · have := ends_tryInsertStr hE hN hs ha i w
    simp only [if_pos hi] at this
    exact this
  · have := ends_tryInsertStr hE hN hs ha i w
    simp only [if_neg (show ¬ i ≤ byteLen cs by omega)] at this
    exact this

theorem quiet_loud (on : Bool) : Quiet (loud on) := by
  intro lvl _ message h w
  rcases h w with ⟨a, e⟩ | ⟨_, hc, _⟩
  · left
    refine ⟨(), ?_⟩
    simp only [loud]
    rw [bind_fst_snd, e]
    rfl
  · exact hc.elim

/-- Test: the outcome with the second answer; the first and the last two are given to messages. -/
example : Quiet (loud true) ∧ Honest countdown ∧
    Holds (Logged.tryPushStr (loud true) countdown (sample, 0)).2.1 ['h', 'é', ' ', 'a', 'a'] := by
  refine ⟨quiet_loud true, honest_countdown, ?_⟩
  delta Logged.tryPushStr Logged.replaceRange addUsize
  rcases usizeMax_eq with h | h | h <;> rw [h] <;> decide +kernel

/-- C55: the same for the constructors.  Of an iterator, the items are asked in order until one does not
fit; the string is made of one answer each. -/
theorem C55_constructors [ValidCapacity N] (E : Env W) (hE : Quiet E) (w : W) (ε : Type) :
    (∀ a, Honest a →
      (∃ t, Answers a t ∧ (Logged.tryFromStr E a w).1 = (ArrayString.tryFromStr (utf8 t) : Res _ (ArrayString N))) ∨
      ∃ c, Falters a c ∧ (Logged.tryFromStr E a w).1 = (c.toRes : Res _ (ArrayString N))) ∧
    (∀ a, Honest a →
      (∃ t, Answers a t ∧
        (Logged.fromStrTruncate E a w).1 = (ArrayString.fromStrTruncate (utf8 t) : Res ε (ArrayString N))) ∨
      ∃ c, Falters a c ∧ (Logged.fromStrTruncate E a w).1 = (c.toRes : Res ε (ArrayString N))) ∧
    (∀ k, (∀ a, some a ∈ k → Honest a) →
      (∃ s ds, (Logged.tryFromIterator E k w).1 = .ok s ∧ Gathered N k (some ds) ∧ Holds (s : ArrayString N) ds) ∨
      ((Logged.tryFromIterator E k w).1 = (.err {} : Res _ (ArrayString N)) ∧ Gathered N k none) ∨
      ∃ c, Spoiled k c ∧ (Logged.tryFromIterator E k w).1 = (c.toRes : Res _ (ArrayString N))) ∧
    (∀ k, (∀ a, some a ∈ k → Honest a.1 ∧ Honest a.2) →
      (∃ s ds, (Logged.fromIteratorTruncate E k w : Res ε _ × W).1 = .ok s ∧ Filled N k ds ∧
        Holds (s : ArrayString N) ds) ∨
      ∃ c, Spoiled2 k c ∧ (Logged.fromIteratorTruncate E k w).1 = (c.toRes : Res ε (ArrayString N))) :=
  have hN := ValidCapacity.le (N := N)
  ⟨fun _ ha => tryFromStr_some hE hN ha w, fun _ ha => fromStrTruncate_some hE hN ha w,
    fun k hk => tryFromIterator_some hE hN k hk w, fun k hk => fromIteratorTruncate_some hE hN k hk w⟩

example : Gathered 3 [some countdown, some touchy, some touchy] (some ['a', 'a', 'a']) ∧
    Gathered 1 [some touchy, some countdown] none ∧
    Filled 3 [some (touchy, touchy), some (countdown, countdown)] ['a', 'a', 'a'] ∧
    Spoiled [some countdown, some touchy] .panic := by
  have a1 : Answers countdown ['a'] := ⟨0, rfl⟩
  have a5 : Answers countdown ['a', 'a', 'a', 'a', 'a'] := ⟨4, rfl⟩
  have t1 : Answers touchy ['a'] := ⟨0, rfl⟩
  refine ⟨?_, ?_, ?_, .inr ⟨touchy, by simp, 1, rfl⟩⟩
  · exact .fits a1 (by decide) (.fits t1 (by decide) (.fits t1 (by decide) (.done _)))
  · exact .fits t1 (by decide) (.over a1 (by decide))
  · have h : Filled 2 [some (countdown, countdown)] ['a', 'a'] :=
      .cut a5 (by decide) a5 ⟨['a', 'a', 'a'], rfl, by decide, by rintro c rest ⟨⟩; decide⟩
    exact .fits (t := ['a']) t1 (by decide) h

theorem safe_of_exec [ValidCapacity N] {ε α : Type} [Kind ε] {m : M (ArrayString N) ε α} {s : ArrayString N}
    {cs : List Char} (hs : Holds s cs) (op : Op) (hop : op.Ok) (out : α → Out) (he : exec op = call m out) :
    (m s).1 ≠ .ub ∧ ∃ ds, Holds (m s).2 ds := by
  obtain ⟨h3, h4⟩ := exec_step op hop s cs hs
  rw [he] at h3 h4
  unfold call at h3 h4
  rw [bind_pure_snd] at h4
  refine ⟨fun e => ?_, _, h4⟩
  rw [bind_fst_snd, M.mapErr_apply, e] at h3
  cases hs : (step N op cs).1 <;> rw [hs] at h3 <;> cases h3

/-- A call with some answer is not undefined behaviour, and leaves a text. -/
theorem safe_of_some {ε α : Type} {a : AsRefStr W} {m : Bytes → M (ArrayString N) ε α}
    {s : ArrayString N} {cs : List Char} {o : Res ε α × ArrayString N × W} (hs : Holds s cs)
    (hu : ¬ Falters a .ub) (hm : ∀ t, (m (utf8 t) s).1 ≠ .ub ∧ ∃ ds, Holds (m (utf8 t) s).2 ds)
    (h : WithSomeAnswer a m s o) : o.1 ≠ .ub ∧ ∃ ds, Holds o.2.1 ds := by
  rcases h with ⟨t, _, h1, h2⟩ | ⟨c, hc, h1, h2⟩
  · rw [h1, h2]
    exact hm t
  · rw [h1, h2]
    refine ⟨?_, cs, hs⟩
    intro e
    cases c <;> cases e
    exact hu hc

/-- C55: so no argument written in safe code can bring about undefined behaviour or leave a string that
is not a text, with the feature off or on, as long as the logger returns. -/
theorem C55_safe [ValidCapacity N] (E : Env W) (hE : Quiet E) (a : AsRefStr W) (ha : Honest a)
    (hu : ¬ Falters a .ub) (s : ArrayString N) (cs : List Char) (hs : Holds s cs) (w : W) (r : RangeB) (i : Nat) :
    ((Logged.tryPushStr E a (s, w)).1 ≠ .ub ∧ ∃ ds, Holds (Logged.tryPushStr E a (s, w)).2.1 ds) ∧
    ((Logged.pushStrTruncate (ε := Error) E a (s, w)).1 ≠ .ub ∧
      ∃ ds, Holds (Logged.pushStrTruncate (ε := Error) E a (s, w)).2.1 ds) ∧
    ((Logged.replaceRange E r a (s, w)).1 ≠ .ub ∧ ∃ ds, Holds (Logged.replaceRange E r a (s, w)).2.1 ds) ∧
    ((Logged.insertStrTruncate E i a (s, w)).1 ≠ .ub ∧ ∃ ds, Holds (Logged.insertStrTruncate E i a (s, w)).2.1 ds) ∧
    ((Logged.tryInsertStr E i a (s, w)).1 ≠ .ub ∧ ∃ ds, Holds (Logged.tryInsertStr E i a (s, w)).2.1 ds) := by
  obtain ⟨h1, h2, h3, h4, h5, h6⟩ := C55_any E hE a ha s cs hs w r i Error
  refine ⟨safe_of_some hs hu (fun t => safe_of_exec hs (.tryPushStr t) trivial (fun _ => .unit) rfl) h1,
    safe_of_some hs hu (fun t => safe_of_exec hs (.pushStrTruncate t) trivial (fun _ => .unit) rfl) h2,
    safe_of_some hs hu (fun t => ?_) h3,
    safe_of_some hs hu (fun t => safe_of_exec hs (.insertStrTruncate i t) trivial (fun _ => .unit) rfl) h4, ?_⟩
  · rcases replaceRange_total (ValidCapacity.le (N := N)) r t hs with ⟨s', ds, e, hh⟩ | ⟨e, h⟩
    · rw [e]; exact ⟨nofun, ds, hh⟩
    · rw [h]; exact ⟨nofun, cs, hs⟩
  by_cases hi : i ≤ byteLen cs
  · exact safe_of_some hs hu (fun t => safe_of_exec hs (.tryInsertStr i t) trivial (fun _ => .unit) rfl) (h5 hi)
  · obtain ⟨h7, h8⟩ := h6 (by omega)
    rw [h7]
    refine ⟨?_, cs, hs⟩
    rcases h8 with h8 | ⟨c, hc, h8⟩ <;> rw [h8]
    · nofun
    · intro e
      cases c <;> cases e
      exact hu hc

example : ¬ Falters touchy .ub ∧ Falters touchy .panic ∧ Answers touchy ['a'] := by
  refine ⟨?_, ⟨1, rfl⟩, 0, rfl⟩
  rintro ⟨w, h⟩
  simp only [touchy] at h
  split at h <;> cases h

/-- C55, refutation: "a method asks its argument once" is false with the feature on: `try_push_str`
asks four times, and what it appends is the second answer. -/
theorem C55_once_refuted :
    (Logged.tryPushStr (loud true) countdown ((ArrayString.new : ArrayString 8), 0)).2.2 = 4 ∧
    Holds (Logged.tryPushStr (loud true) countdown ((ArrayString.new : ArrayString 8), 0)).2.1 ['a', 'a'] ∧
    (Logged.tryPushStr (loud true) touchy ((ArrayString.new : ArrayString 8), 0)).1 = .panic ∧
    (Logged.tryPushStr (loud false) touchy ((ArrayString.new : ArrayString 8), 0)).1 = .ok () := by
  delta Logged.tryPushStr Logged.replaceRange addUsize
  rcases usizeMax_eq with h | h | h <;> rw [h] <;> decide +kernel

end Verif
