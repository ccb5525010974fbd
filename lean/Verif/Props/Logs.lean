import Verif.Proofs.Logs
import Verif.Props.History
import Verif.Props.Sample

/-!
# Properties of the `logs` feature

`Logged.exec E op` and `Logged.runOps E ops` are a call and a history of calls with every log
statement of the crate performed, for the logger `E`; `exec` and `runOps` are the same without the
feature.  A pair `(s, w)` is the string and the state of the world, which the logger may change.
-/

namespace Verif
open Spec Logged

variable {W : Type} {N : Nat}

/-- A logger that writes the messages down. -/
def collector (debugAssertions : Bool) : Env (List Bytes) where
  debugAssertions := debugAssertions
  enabled _ _ := true
  log _ message := do
    let b ← message
    let w ← M.self
    M.setSelf (w ++ [b])
  dbgStr b := lit "\"" ++ b ++ lit "\""
  dbgUnits l := l.map fun u => UInt8.ofNat u.toNat

theorem quiet_collector (d : Bool) : Quiet (collector d) := by
  intro lvl _ message h w
  rcases h w with ⟨a, e⟩ | ⟨_, hc, _⟩
  · left
    refine ⟨(), ?_⟩
    simp only [collector]
    rw [bind_fst_snd, e]
    rfl
  · exact hc.elim

/-- A logger that panics, once: at the `k`th message, where `k` is the state of the world. -/
def fragile (debugAssertions : Bool) : Env Nat where
  debugAssertions := debugAssertions
  enabled _ _ := true
  log _ message := do
    let _ ← message
    let k ← M.self
    M.setSelf (k - 1)
    M.lift (if k = 1 then .panic else .ok ())
  dbgStr b := b
  dbgUnits l := l.map fun u => UInt8.ofNat u.toNat

theorem mayPanic_fragile (d : Bool) : MayPanic (fragile d) := by
  intro lvl _ message h w
  simp only [fragile]
  rw [bind_fst_snd]
  rcases h w with ⟨a, e⟩ | ⟨c, hc, e⟩
  · rw [e]
    simp only [M.bind_apply, M.self_apply, M.setSelf_apply, M.lift_apply]
    split
    · exact .inr ⟨.panic, rfl, rfl⟩
    · exact .inl ⟨_, rfl⟩
  · rw [e, hc]
    exact .inr ⟨.panic, rfl, rfl⟩

/-- A logger behind a lock that cannot be taken twice: logging while the lock is held never returns.
The state of the world says whether it is held. -/
def locked : Env Bool where
  debugAssertions := false
  enabled _ _ := true
  log _ message := fun held =>
    if held then (.diverge, true)
    else match message true with
      | (.ok _, _) => (.ok (), false)
      | (r, w) => (r.bind fun _ => .ok (), w)
  dbgStr b := b
  dbgUnits l := l.map fun u => UInt8.ofNat u.toNat

theorem usizeMax_eq : usizeMax = 2 ^ 16 - 1 ∨ usizeMax = 2 ^ 32 - 1 ∨ usizeMax = 2 ^ 64 - 1 := by
  unfold usizeMax
  cases width <;> simp [Width.bits]

/-- Compute the outcome of calls on concrete strings, on platforms with 16, 32 and 64 bits. -/
local macro "compute" : tactic => `(tactic| (
  try simp only [Logged.runOps]
  delta Logged.exec
  try delta Logged.splitOff
  try delta Logged.drain
  try delta Logged.tryFromStr
  try delta Logged.remove
  try delta Logged.removeScan
  try delta Logged.insertStrTruncate
  try delta Logged.tryInsert
  try delta Logged.tryInsertStr
  try delta Logged.tryPush
  try delta Logged.tryPushStr
  try delta Logged.trim
  try delta Logged.replaceRange
  try delta addUsize saturatingAdd
  rcases usizeMax_eq with h | h | h <;> rw [h] <;> decide +kernel))

/-! ## Loggers that return -/

/-- C53: with any logger that returns, every history gives the same outcomes as without the feature
and leaves the same string, down to the bytes past its length; with or without debug assertions, and
whatever the levels that are enabled. -/
theorem C53_transparent [ValidCapacity N] (E : Env W) (hE : Quiet E) (ops : List Op) (hops : ∀ op ∈ ops, op.Ok)
    (s : ArrayString N) (cs : List Char) (hs : Holds s cs) (w : W) :
    (Logged.runOps E ops (s, w)).1 = (runOps ops s).1 ∧
    (Logged.runOps E ops (s, w)).2.1 = (runOps ops s).2 := by
  induction ops generalizing s cs w with
  | nil => exact ⟨rfl, rfl⟩
  | cons op ops ih =>
    have hop := hops op (List.mem_cons_self ..)
    rcases sim_exec hE op hop hs w with ⟨h1, h2⟩ | ⟨_, hc, _⟩
    · have h3 := (exec_step op hop s cs hs).2
      rw [← h2] at h3
      obtain ⟨h4, h5⟩ := ih (fun o ho => hops o (List.mem_cons_of_mem _ ho)) _ _ h3
        (Logged.exec E op (s, w)).2.2
      simp only [Logged.runOps, runOps, ← h2, ← h1]
      exact ⟨by rw [← h4], h5⟩
    · exact hc.elim

/-- C53: in particular a history from an empty string refines the same history on its text. -/
theorem C53_refinement [ValidCapacity N] (E : Env W) (hE : Quiet E) (ops : List Op) (hops : ∀ op ∈ ops, op.Ok)
    (s : ArrayString N) (cs : List Char) (hs : Holds s cs) (w : W) :
    (Logged.runOps E ops (s, w)).1 = (steps N ops cs).1.map Answer.toRes ∧
    Holds (Logged.runOps E ops (s, w)).2.1 (steps N ops cs).2 := by
  obtain ⟨h1, h2⟩ := C53_transparent E hE ops hops s cs hs w
  obtain ⟨h3, h4⟩ := C03_refinement ops hops s cs hs
  rw [h1, h2]
  exact ⟨h3, h4⟩

/-- A history of which the messages are not what one would guess: `is_char_boundary` asks for the
text twice, once for its message. -/
example : (Logged.runOps (collector false) [.truncate 1] (sample, [])).2.2 =
    [lit "Truncate: 1", lit "Len", lit "As str", lit "Len", lit "Is char boundary: hé  at 1",
     lit "As str", lit "Len"] ∧
    Quiet (collector false) := ⟨by decide, quiet_collector _⟩

/-! ## Loggers that do not return -/

/-- C53: if the logger cuts its callers short only in the ways `A`, then a call either does what it
does without the feature, or is cut short in one of these ways, and then leaves the string as `Left`
says.  In particular a logger that panics never makes the call itself undefined behaviour. -/
theorem C53_cut_short [ValidCapacity N] (A : Crash → Prop) (E : Env W) (hE : Tame A E) (op : Op) (hop : op.Ok)
    (s : ArrayString N) (cs : List Char) (hs : Holds s cs) (w : W) :
    ((Logged.exec E op (s, w)).1 = (exec op s).1 ∧ (Logged.exec E op (s, w)).2.1 = (exec op s).2) ∨
    ∃ c, A c ∧ (Logged.exec E op (s, w)).1 = c.toRes ∧ Left op s cs (Logged.exec E op (s, w)).2.1 :=
  sim_exec hE op hop hs w

example : (Logged.exec (fragile false) (.tryPushStr ['x', 'y']) (sample, 22)).1 = .panic ∧
    (Logged.exec (fragile false) (.tryPushStr ['x', 'y']) (sample, 22)).2.1 ≠ sample ∧
    Holds (Logged.exec (fragile false) (.tryPushStr ['x', 'y']) (sample, 22)).2.1 ['h', 'é', ' '] := by compute

/-- The calls that leave a text however they are cut short: all but the edits inside the text. -/
def Sturdy : Op → Prop
  | .remove _ | .tryInsert _ _ | .tryInsertStr _ _ | .insertStrTruncate _ _ | .replaceRange _ _ | .drain _ _
  | .trim => False
  | _ => True

theorem left_sturdy [ValidCapacity N] {op : Op} (h : Sturdy op) {s u : ArrayString N} {cs : List Char}
    (hs : Holds s cs) (hu : Left op s cs u) : ∃ ds, Holds u ds := by
  cases op <;> simp only [Sturdy] at h <;> simp only [Left] at hu
  case writeFmt => obtain ⟨k, hu⟩ := hu; exact ⟨_, hu⟩
  case splitOff => exact hu.elim (fun h => ⟨cs, h ▸ hs⟩) fun h => ⟨_, h⟩
  all_goals first | exact ⟨_, hu⟩ | (subst hu; exact ⟨_, hs⟩)

/-- C53: histories of calls other than edits inside the text keep the string valid, whatever
panics the logger throws and the caller catches: no call is undefined behaviour or fails to return,
and at the end the string holds a text. -/
theorem C53_sturdy [ValidCapacity N] (E : Env W) (hE : MayPanic E) (ops : List Op)
    (hops : ∀ op ∈ ops, op.Ok ∧ Sturdy op) (s : ArrayString N) (cs : List Char) (hs : Holds s cs) (w : W) :
    (∀ r ∈ (Logged.runOps E ops (s, w)).1, r ≠ .ub ∧ r ≠ .diverge) ∧
    ∃ ds, Holds (Logged.runOps E ops (s, w)).2.1 ds := by
  induction ops generalizing s cs w with
  | nil => exact ⟨by simp [Logged.runOps], cs, hs⟩
  | cons op ops ih =>
    obtain ⟨hop, hst⟩ := hops op (List.mem_cons_self ..)
    have key : ((Logged.exec E op (s, w)).1 ≠ .ub ∧ (Logged.exec E op (s, w)).1 ≠ .diverge) ∧
        ∃ ds, Holds (Logged.exec E op (s, w)).2.1 ds := by
      obtain ⟨h1, h2⟩ := exec_step op hop s cs hs
      rcases sim_exec hE op hop hs w with ⟨h3, h4⟩ | ⟨c, rfl, h3, h4⟩
      · rw [h3, h4, h1]
        refine ⟨?_, _, h2⟩
        cases (step N op cs).1 <;> exact ⟨nofun, nofun⟩
      · rw [h3]
        exact ⟨⟨nofun, nofun⟩, left_sturdy hst hs h4⟩
    obtain ⟨ds, hds⟩ := key.2
    obtain ⟨h1, h2⟩ := ih (fun o ho => hops o (List.mem_cons_of_mem _ ho)) _ _ hds (Logged.exec E op (s, w)).2.2
    refine ⟨?_, h2⟩
    simp only [Logged.runOps, List.mem_cons]
    rintro r (rfl | hr)
    · exact key.1
    · exact h1 r hr

example : MayPanic (fragile true) ∧ (∀ op ∈ [.tryPush 'é', .pop, .splitOff 1, .len], op.Ok ∧ Sturdy op) ∧
    (Logged.runOps (fragile true) [.tryPush 'é', .pop, .splitOff 1, .len] (sample, 90)).1 =
      [.ok .unit, .ok (.optChar (some 'é')), .panic, .ok (.nat 4)] :=
  ⟨mayPanic_fragile _, by simp [Op.Ok, Sturdy], by compute⟩

/-- C53: between lines 889 and 890 of `replace_range` the string has the bytes of its new text and the
length of the old one.  That is a text exactly if the shorter of the two lengths is a character
boundary of the longer text. -/
theorem C53_overwritten (s : ArrayString N) (cs new : List Char) (hs : Holds s cs) (hn : byteLen new ≤ N) :
    (∃ ds, Holds (overwrite s new) ds) ↔
      if byteLen new ≤ byteLen cs then IsBoundary cs (byteLen new) else IsBoundary new (byteLen cs) :=
  overwrite_iff hs hn

example : (∃ ds, Holds (overwrite sample ['x', ' ']) ds) = False ∧ (∃ ds, Holds (overwrite sample ['x']) ds) := by
  constructor
  · rw [eq_iff_iff, iff_false, C53_overwritten sample _ _ sample_holds (by decide)]
    decide
  · rw [C53_overwritten sample _ _ sample_holds (by decide)]
    decide

/-- C53: so a panicking logger leaves the string broken only in an edit that goes from a text to one
where these lengths do not match. -/
theorem C53_broken_only [ValidCapacity N] (E : Env W) (hE : MayPanic E) (op : Op) (hop : op.Ok)
    (s : ArrayString N) (cs : List Char) (hs : Holds s cs) (w : W)
    (hb : ¬ ∃ ds, Holds (Logged.exec E op (s, w)).2.1 ds) :
    (Logged.exec E op (s, w)).1 = .panic ∧ ¬ Sturdy op ∧
    ((op = .trim ∧ ∃ pre post, cs = pre ++ trimText cs ++ post ∧ (∀ c ∈ pre, IsWhite c) ∧
        (∀ c ∈ post, IsWhite c) ∧ ¬ IsBoundary (pre ++ trimText cs) (byteLen (trimText cs))) ∨
      ((Logged.exec E op (s, w)).2.1 = overwrite s (step N op cs).2 ∧
        ¬ (if byteLen (step N op cs).2 ≤ byteLen cs then IsBoundary cs (byteLen (step N op cs).2)
          else IsBoundary (step N op cs).2 (byteLen cs)))) := by
  obtain ⟨h1, h2⟩ := exec_step op hop s cs hs
  rcases sim_exec hE op hop hs w with ⟨h3, h4⟩ | ⟨c, rfl, h3, h4⟩
  · exact absurd ⟨_, h4 ▸ h2⟩ hb
  · refine ⟨h3, fun h => hb (left_sturdy h hs h4), ?_⟩
    have key : (Logged.exec E op (s, w)).2.1 = overwrite s (step N op cs).2 →
        ((Logged.exec E op (s, w)).2.1 = overwrite s (step N op cs).2 ∧
        ¬ (if byteLen (step N op cs).2 ≤ byteLen cs then IsBoundary cs (byteLen (step N op cs).2)
          else IsBoundary (step N op cs).2 (byteLen cs))) := by
      intro e
      refine ⟨e, fun h => hb ?_⟩
      rw [e]
      exact (overwrite_iff hs h2.le).2 h
    have hsame : (Logged.exec E op (s, w)).2.1 ≠ s := fun e => hb ⟨cs, by rw [e]; exact hs⟩
    have hst : ¬ Sturdy op := fun h => hb (left_sturdy h hs h4)
    cases op <;> simp only [Sturdy, not_true] at hst <;> simp only [Left] at h4
    case trim =>
      left
      refine ⟨rfl, ?_⟩
      rcases h4 with h4 | ⟨pre, post, e, h5, h6, s1, h7, h8⟩
      · exact absurd h4 hsame
      · refine ⟨pre, post, e, h5, h6, fun h => hb ?_⟩
        rcases h8 with h8 | h8 <;> rw [h8]
        · exact ⟨_, h7⟩
        · have := h7.le
          refine (overwrite_iff h7 (by simp at this; omega)).2 ?_
          rw [if_pos (by simp)]
          exact h
    case drain =>
      rcases h4 with h4 | h4 | h4
      · exact absurd h4 hsame
      · exact .inr (key h4)
      · exact absurd ⟨_, h4⟩ hb
    all_goals exact .inr (key (h4.resolve_left hsame))

/-- `aé`, in a string of capacity 8. -/
def aé : ArrayString 8 := ⟨[97, 0xC3, 0xA9, 0, 0, 0, 0, 0], 3⟩

/-- C53, refutation: "whatever the logger does, a call leaves a valid string" is false, in builds with
debug assertions and in builds without. -/
theorem C53_refuted (d : Bool) :
    ¬ (∀ (W : Type) (E : Env W), E.debugAssertions = d → MayPanic E →
      ∀ (s : ArrayString 8) (cs : List Char) (op : Op) (w : W), op.Ok → Holds s cs →
        ∃ ds, Holds (Logged.exec E op (s, w)).2.1 ds) := by
  intro h
  obtain ⟨ds, hd⟩ := h Nat (fragile d) rfl (mayPanic_fragile d) aé ['a', 'é'] (.remove 0)
    (if d then 57 else 33) trivial (by decide +kernel)
  have h1 : Str.validUtf8 (utf8 ds) = true := validUtf8_utf8 ds
  rw [← hd.2.2] at h1
  revert h1
  clear hd
  cases d <;> compute

/-- C53: then the next call, which touches nothing unsafe itself, is undefined behaviour: `remove`
panics in the logger, the panic is caught, and `as_str` makes a `str` of bytes that are not UTF-8.
With debug assertions the assertion in `as_ref` panics instead. -/
theorem C53_undefined :
    (Logged.runOps (fragile false) [.remove 0, .asStr] (aé, 33)).1 = [.panic, .ub] ∧
    (Logged.runOps (fragile true) [.remove 0, .asStr] (aé, 57)).1 = [.panic, .panic] := by
  compute

/-- Tests: the other edits can be left broken too. -/
example :
    (Logged.runOps (fragile false) [.drain (.range 0 1) [], .asStr] (aé, 60)).1 = [.panic, .ub] ∧
    (Logged.runOps (fragile false) [.trim, .asStr] (⟨[32, 0xC3, 0xA9], 3⟩, 32) (N := 3)).1 = [.panic, .ub] ∧
    (Logged.runOps (fragile false) [.tryInsert 0 'a', .asStr] (⟨[0xC3, 0xA9, 0], 2⟩, 25) (N := 3)).1 = [.panic, .ub] ∧
    (Logged.runOps (fragile false) [.tryInsertStr 0 ['a'], .asStr] (⟨[0xC3, 0xA9, 0], 2⟩, 25) (N := 3)).1 =
      [.panic, .ub] ∧
    (Logged.runOps (fragile false) [.insertStrTruncate 0 ['a'], .asStr] (⟨[0xC3, 0xA9, 0], 2⟩, 30) (N := 3)).1 =
      [.panic, .ub] ∧
    (Logged.runOps (fragile false) [.replaceRange (.range 0 2) ['€'], .asStr] (⟨[0xC3, 0xA9, 0], 2⟩, 20)
      (N := 3)).1 = [.panic, .ub] := by
  refine ⟨?_, ?_, ?_, ?_, ?_, ?_⟩ <;> compute

/-! ## Loggers that change what the caller's `as_ref` answers -/

/-- An argument that answers `a` when first asked for its text and `bc` afterwards; the state of the
world says whether it was asked. -/
def fickle : AsRefStr Bool := fun asked => (.ok (utf8 (if asked then ['b', 'c'] else ['a'])), true)

/-- A logger that does nothing but format the messages; `on` says whether it is enabled. -/
def listener (on : Bool) : Env Bool where
  debugAssertions := false
  enabled _ _ := on
  log _ message := do
    let _ ← message
    pure ()
  dbgStr b := b
  dbgUnits l := l.map fun u => UInt8.ofNat u.toNat

/-- C53: histories take `&str` arguments.  For an argument whose `as_ref` does not always answer the
same, enabling the feature changes the result: the message asks for the text first. -/
theorem C53_as_ref_refuted :
    Holds (Logged.tryPushStr (listener false) fickle ((ArrayString.new : ArrayString 8), false)).2.1 ['a'] ∧
    Holds (Logged.tryPushStr (listener true) fickle ((ArrayString.new : ArrayString 8), false)).2.1 ['b', 'c'] := by
  delta Logged.tryPushStr Logged.replaceRange addUsize
  rcases usizeMax_eq with h | h | h <;> rw [h] <;> decide +kernel

/-! ## Loggers that cannot be entered twice -/

/-- C53: a message with the string in it is formatted inside the logger, and formatting the string logs
again.  With a logger behind a lock (or a `RefCell`) these calls never return, for any string: -/
theorem C53_reentrant (s : ArrayString N) :
    (∀ e, (Logged.exec locked (.asMutStr e) (s, false)).1 = .diverge) ∧
    (∀ i e, (Logged.exec locked (.indexMut i e) (s, false)).1 = .diverge) ∧
    (∀ i w, (Logged.exec locked (.tryInsertStr i w) (s, false)).1 = .diverge) ∧
    (∀ i w, (Logged.exec locked (.insertStrTruncate i w) (s, false)).1 = .diverge) ∧
    (Logged.exec locked .trim (s, false)).1 = .diverge := by
  refine ⟨fun _ => rfl, fun _ _ => rfl, fun _ _ => rfl, fun _ _ => rfl, rfl⟩

end Verif
