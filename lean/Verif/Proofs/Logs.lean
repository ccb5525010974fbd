import Verif.Spec.Logs
import Verif.Proofs.History

/-! # The `logs` feature: the model with log statements simulates the model without -/

namespace Verif.Logged
open Verif Spec

variable {W ε ε' α β : Type} {N : Nat} {A : Crash → Prop} {E : Env W}

/-! ## `&self` computations -/

/-- `x` gives `r`, unless it is cut short in one of the ways `A`. -/
def Calm (A : Crash → Prop) (x : M W ε α) (r : Res ε α) : Prop :=
  ∀ w, (x w).1 = r ∨ ∃ c, A c ∧ (x w).1 = c.toRes

theorem Calm.fine {x : M W ε α} {a : α} (h : Calm A x (.ok a)) : Fine A x := fun w =>
  (h w).imp (fun h => ⟨a, h⟩) id

theorem calm_pure (a : α) : Calm A (pure a : M W ε α) (.ok a) := fun _ => .inl rfl
theorem calm_text (b : Bytes) : Calm A (text b : AsRefStr W) (.ok b) := fun _ => .inl rfl
theorem calm_lift (r : Res ε α) : Calm A (M.lift r : M W ε α) r := fun _ => .inl rfl

theorem bind_crash {σ : Type} {x : M σ ε α} {f : α → M σ ε β} {w : σ} {c : Crash} (h : (x w).1 = c.toRes) :
    (x >>= f) w = (c.toRes, (x w).2) := by
  rw [M.bind_apply]
  rcases hx : x w with ⟨r, w'⟩
  simp only [hx] at h ⊢
  subst h
  cases c <;> rfl

theorem bind_val {σ : Type} {x : M σ ε α} {f : α → M σ ε β} {w : σ} {a : α} (h : (x w).1 = .ok a) :
    (x >>= f) w = f a (x w).2 := by
  rw [M.bind_apply]
  rcases hx : x w with ⟨r, w'⟩
  simp only [hx] at h ⊢
  subst h
  rfl

theorem Calm.bind {x : M W ε α} {r : Res ε α} {f : α → M W ε β} {g : α → Res ε β} (hx : Calm A x r)
    (hf : ∀ a, r = .ok a → Calm A (f a) (g a)) : Calm A (x >>= f) (r >>= g) := by
  intro w
  rcases hx w with h | ⟨c, hc, h⟩
  · cases r with
    | ok a =>
      rw [bind_val h]
      exact hf a rfl _
    | err e => left; rw [M.bind_apply]; rcases hy : x w with ⟨r, w'⟩; simp only [hy] at h ⊢; subst h; rfl
    | panic => left; rw [bind_crash (c := .panic) h]; rfl
    | ub => left; rw [bind_crash (c := .ub) h]; rfl
    | diverge => left; rw [bind_crash (c := .diverge) h]; rfl
  · right; exact ⟨c, hc, by rw [bind_crash h]⟩

/-- A step that only yields a value. -/
theorem Calm.then {x : M W ε α} {a : α} {f : α → M W ε β} {r : Res ε β} (hx : Calm A x (.ok a))
    (hf : Calm A (f a) r) : Calm A (x >>= f) r := by
  have := hx.bind (f := f) (g := fun _ => r) (fun b hb => by cases hb; exact hf)
  exact this

theorem calm_noErr {x : M W Empty α} {a : α} (h : Calm A x (.ok a)) : Calm A (noErr x : M W ε α) (.ok a) := by
  intro w
  unfold noErr
  rw [M.mapErr_apply]
  rcases h w with h | ⟨c, hc, h⟩
  · left; simp [h]
  · right; refine ⟨c, hc, ?_⟩; simp only [h]; cases c <;> rfl

theorem calm_record (hE : Tame A E) {lvl : Level} {args : M W Empty (M W Empty Bytes)} {message : M W Empty Bytes}
    {b : Bytes} (h1 : Calm A args (.ok message)) (h2 : Calm A message (.ok b)) :
    Calm A (record E lvl args : M W ε Unit) (.ok ()) := by
  intro w
  unfold record
  split
  · rename_i he
    have : Calm A (args >>= E.log lvl) (.ok ()) := by
      refine h1.then ?_
      intro w'
      rcases hE lvl ⟨w, he⟩ message h2.fine w' with ⟨_, h⟩ | h
      · exact .inl h
      · exact .inr h
    exact calm_noErr this w
  · exact .inl rfl

theorem calm_note (hE : Tame A E) (lvl : Level) (b : Bytes) : Calm A (note E lvl b : M W ε Unit) (.ok ()) :=
  calm_record hE (calm_pure _) (calm_pure b)

theorem calm_debugAssertM {x : M W ε Bool} (h : Calm A x (.ok true)) :
    Calm A (debugAssertM E x) (.ok ()) := by
  unfold debugAssertM
  split
  · exact h.then (calm_lift _)
  · exact calm_pure ()

theorem calm_attempt {x : M W ε α} {r : Res ε α} (h : Calm A x r) :
    Calm A (M.attempt x : M W ε' (Except ε α)) r.attempt := by
  intro w
  rw [M.attempt_apply]
  rcases h w with h | ⟨c, hc, h⟩
  · exact .inl (by rw [h])
  · refine .inr ⟨c, hc, ?_⟩
    simp only [h]; cases c <;> rfl

theorem calm_mapErr {x : M W ε α} {r : Res ε α} {f : ε → ε'} (h : Calm A x r) :
    Calm A (M.mapErr f x) (r.mapErr f) := by
  intro w
  rw [M.mapErr_apply]
  rcases h w with h | ⟨c, hc, h⟩
  · exact .inl (by rw [h])
  · refine .inr ⟨c, hc, ?_⟩
    simp only [h]; cases c <;> rfl

theorem calm_tryOutOfBounds {x : M W OutOfBounds α} {r : Res OutOfBounds α} (hE : Tame A E) (h : Calm A x r) :
    Calm A (tryOutOfBounds (noteOutOfBounds E) x) (r.mapErr ErrFrom.from_) := by
  have key := (calm_attempt (ε' := Error) h).bind
    (f := fun r => match r with
      | .ok a => pure a
      | .error _ => do noteOutOfBounds E; M.lift (.err .outOfBounds))
    (g := fun r => match r with
      | .ok a => .ok a
      | .error _ => .err .outOfBounds) (by
    intro a _
    cases a with
    | ok a => exact calm_pure a
    | error e => exact (calm_note hE _ _).then (calm_lift _))
  have e : (r.attempt >>= fun r => match r with
      | .ok a => .ok a
      | .error _ => .err .outOfBounds) = (r.mapErr ErrFrom.from_ : Res Error α) := by cases r <;> rfl
  rw [e] at key
  exact key

theorem calm_tryUtf8 {x : M W Utf8 α} {r : Res Utf8 α} (hE : Tame A E) (h : Calm A x r) :
    Calm A (tryUtf8 E x) (r.mapErr ErrFrom.from_) := by
  have key := (calm_attempt (ε' := Error) h).bind
    (f := fun r => match r with
      | .ok a => pure a
      | .error _ => do note E .trace (lit "From Utf8"); M.lift (.err .utf8))
    (g := fun r => match r with
      | .ok a => .ok a
      | .error _ => .err .utf8) (by
    intro a _
    cases a with
    | ok a => exact calm_pure a
    | error e => exact (calm_note hE _ _).then (calm_lift _))
  have e : (r.attempt >>= fun r => match r with
      | .ok a => .ok a
      | .error _ => .err .utf8) = (r.mapErr ErrFrom.from_ : Res Error α) := by cases r <;> rfl
  rw [e] at key
  exact key

variable {s : ArrayString N} {cs : List Char}

theorem calm_len (hE : Tame A E) (s : ArrayString N) : Calm A (len E s : M W ε Nat) (.ok s.len) :=
  (calm_note hE _ _).then (calm_pure _)

theorem calm_asRefBytes (hE : Tame A E) (hs : Holds s cs) : Calm A (asRefBytes E s : M W ε Bytes) (.ok (utf8 cs)) := by
  have hn : s.len ≤ N := hs.2.1
  unfold asRefBytes
  refine (calm_debugAssertM (Calm.then (calm_len hE s) ?_)).then ?_
  · simpa [hn] using calm_pure (A := A) (W := W) (ε := ε) true
  · refine (calm_len hE s).then ?_
    have : (getUncheckedTo s.array s.len : Res ε Bytes) = .ok (utf8 cs) := by
      unfold getUncheckedTo
      rw [if_pos (by rw [hs.1]; exact hn)]
      exact congrArg _ hs.2.2
    rw [this]; exact calm_lift _

theorem calm_asRefStr (hE : Tame A E) (hs : Holds s cs) : Calm A (asRefStr E s : M W ε Bytes) (.ok (utf8 cs)) := by
  unfold asRefStr
  refine (calm_debugAssertM (Calm.then (calm_asRefBytes hE hs) ?_)).then ?_
  · simpa using calm_pure (A := A) (W := W) (ε := ε) true
  · refine (calm_asRefBytes hE hs).then ?_
    have : (Str.fromUtf8Unchecked (utf8 cs) : Res ε Bytes) = .ok (utf8 cs) := by simp [Str.fromUtf8Unchecked]
    rw [this]; exact calm_lift _

theorem calm_asStr (hE : Tame A E) (hs : Holds s cs) : Calm A (asStr E s : M W ε Bytes) (.ok (utf8 cs)) :=
  (calm_note hE _ _).then (calm_asRefStr hE hs)

theorem calm_showDebug (hE : Tame A E) (hs : Holds s cs) : ∃ b, Calm A (showDebug E s) (.ok b) :=
  ⟨_, (calm_asStr hE hs).then (calm_pure _)⟩

theorem calm_isInsideBoundary (hE : Tame A E) (a b : Nat) :
    Calm A (isInsideBoundary E a b) (Verif.isInsideBoundary a b) :=
  (calm_note hE _ _).then (calm_lift _)

theorem calm_checkInside (hE : Tame A E) (a b : Nat) :
    Calm A (checkInside E a b) ((Verif.isInsideBoundary a b).mapErr ErrFrom.from_) :=
  calm_tryOutOfBounds hE (calm_isInsideBoundary hE a b)

theorem calm_isCharBoundary (hE : Tame A E) (hs : Holds s cs) (i : Nat) :
    Calm A (isCharBoundary E s i) (s.isCharBoundary i) := by
  unfold isCharBoundary ArrayString.isCharBoundary
  refine (calm_record hE ((calm_asStr hE hs).then (calm_pure _)) (calm_pure _)).then ?_
  rw [hs.asStr]
  exact (calm_asStr hE hs).then (calm_lift _)

theorem calm_truncateStr (hE : Tame A E) (b : Bytes) (n : Nat) :
    Calm A (truncateStr E b n : M W ε Bytes) (Verif.truncateStr b n) :=
  (calm_note hE _ _).then (calm_lift _)

theorem calm_rangeEnd (hE : Tame A E) (r : RangeB) (s : ArrayString N) :
    Calm A (rangeEnd E r s : M W ε Nat) (.ok (ArrayString.rangeEnd r s.len)) := by
  unfold rangeEnd ArrayString.rangeEnd
  cases r.stop with
  | included t => exact calm_pure _
  | excluded t => exact calm_pure _
  | unbounded => exact calm_len hE s

/-! ## `&mut self` computations -/

/-- Started at the string `s`, `x` does what `m` does started at `t`, unless it is cut short in one of
the ways `A`, leaving a string with `P`. -/
def Sim (A : Crash → Prop) (P : ArrayString N → Prop) (s t : ArrayString N)
    (x : M (ArrayString N × W) ε α) (m : M (ArrayString N) ε α) : Prop :=
  ∀ w, ((x (s, w)).1 = (m t).1 ∧ (x (s, w)).2.1 = (m t).2) ∨
    ∃ c, A c ∧ (x (s, w)).1 = c.toRes ∧ P (x (s, w)).2.1

variable {P Q : ArrayString N → Prop} {t : ArrayString N}

theorem Sim.mono {x : M (ArrayString N × W) ε α} {m : M (ArrayString N) ε α} (h : Sim A P s t x m)
    (hPQ : ∀ u, P u → Q u) : Sim A Q s t x m := fun w =>
  (h w).imp id fun ⟨c, h1, h2, h3⟩ => ⟨c, h1, h2, hPQ _ h3⟩

theorem bind_fst_snd {σ : Type} {m : M σ ε α} {g : α → M σ ε β} (u : σ) :
    (m >>= g) u = match (m u).1 with
      | .ok a => g a (m u).2
      | .err e => (.err e, (m u).2)
      | .panic => (.panic, (m u).2)
      | .ub => (.ub, (m u).2)
      | .diverge => (.diverge, (m u).2) := by
  rw [M.bind_apply]
  obtain ⟨r, s⟩ := m u
  cases r <;> rfl

theorem Sim.bind {x : M (ArrayString N × W) ε α} {m : M (ArrayString N) ε α}
    {f : α → M (ArrayString N × W) ε β} {g : α → M (ArrayString N) ε β} (hx : Sim A P s t x m)
    (hf : ∀ a u, m t = (.ok a, u) → Sim A P u u (f a) (g a)) : Sim A P s t (x >>= f) (m >>= g) := by
  intro w
  rcases hx w with ⟨h1, h2⟩ | ⟨c, hc, h1, h2⟩
  · rw [bind_fst_snd (m := x), bind_fst_snd (m := m), h1]
    rcases hm : m t with ⟨r, u⟩
    rw [hm] at h1 h2
    cases r with
    | ok a =>
      have := hf a u hm (x (s, w)).2.2
      simp only at h2
      rw [← h2] at this ⊢
      exact this
    | err e => exact .inl ⟨rfl, h2⟩
    | panic => exact .inl ⟨rfl, h2⟩
    | ub => exact .inl ⟨rfl, h2⟩
    | diverge => exact .inl ⟨rfl, h2⟩
  · right
    refine ⟨c, hc, ?_⟩
    rw [bind_crash h1]
    exact ⟨rfl, h2⟩

/-- A `&self` step that only yields a value. -/
theorem Sim.skip {f : ArrayString N → M W ε α} {a : α} {g : α → M (ArrayString N × W) ε β}
    {m : M (ArrayString N) ε β} (hf : Calm A (f s) (.ok a)) (hP : P s) (hg : Sim A P s t (g a) m) :
    Sim A P s t (view f >>= g) m := by
  intro w
  rcases hf w with h | ⟨c, hc, h⟩
  · have hv : (view f (s, w)).1 = .ok a := h
    rw [bind_val hv]
    exact hg _
  · have hv : (view f (s, w)).1 = c.toRes := h
    right
    rw [bind_crash hv]
    exact ⟨c, hc, rfl, hP⟩

/-- A step that reads the string, without logging. -/
theorem Sim.read {f : ArrayString N → Res ε α} {a : α} {g : α → M (ArrayString N × W) ε β}
    {m : M (ArrayString N) ε β} (hf : f s = .ok a) (hg : Sim A P s t (g a) m) :
    Sim A P s t (view (fun s => M.lift (f s)) >>= g) m := by
  intro w
  have hv : (view (fun s => (M.lift (f s) : M W ε α)) (s, w)).1 = .ok a := hf
  rw [bind_val hv]
  exact hg _

/-- A `&self` step with the same outcome on both sides. -/
theorem Sim.check {f : ArrayString N → M W ε α} {r : Res ε α} {g : α → M (ArrayString N × W) ε β}
    {h : α → M (ArrayString N) ε β} (hf : Calm A (f s) r) (hP : P s)
    (hg : ∀ a, r = .ok a → Sim A P s s (g a) (h a)) :
    Sim A P s s (view f >>= g) (M.lift r >>= h) := by
  refine Sim.bind (m := M.lift r) ?_ ?_
  · intro w
    rcases hf w with e | ⟨c, hc, e⟩
    · exact .inl ⟨e, rfl⟩
    · exact .inr ⟨c, hc, e, hP⟩
  · rintro a u hu
    cases hu
    exact hg a rfl

/-- A pure step on both sides. -/
theorem Sim.step {r : Res ε α} {g : α → M (ArrayString N × W) ε β} {h : α → M (ArrayString N) ε β}
    (hg : ∀ a, r = .ok a → Sim A P s s (g a) (h a)) : Sim A P s s (M.lift r >>= g) (M.lift r >>= h) := by
  intro w
  cases r with
  | ok a => exact hg a rfl w
  | err e => exact .inl ⟨rfl, rfl⟩ 
  | panic => exact .inl ⟨rfl, rfl⟩
  | ub => exact .inl ⟨rfl, rfl⟩
  | diverge => exact .inl ⟨rfl, rfl⟩

theorem lift_ok {σ : Type} (a : α) (f : α → M σ ε β) : (M.lift (.ok a) >>= f) = f a := rfl
theorem try_eq {σ : Type} [ErrFrom ε ε'] (r : Res ε α) : (M.try_ r : M σ ε' α) = M.lift (r.mapErr ErrFrom.from_) := rfl
theorem self_bind {σ : Type} (f : σ → M σ ε β) (u : σ) : (M.self >>= f) u = f u u := rfl

theorem Sim.self {x : M (ArrayString N × W) ε β} {f : ArrayString N → M (ArrayString N) ε β}
    (h : Sim A P s t x (f t)) : Sim A P s t x (M.self >>= f) := h

theorem inside_of_ok {a b : Nat} {u : Unit}
    (h : ((Verif.isInsideBoundary a b).mapErr ErrFrom.from_ : Res Error Unit) = .ok u) : a ≤ b := by
  unfold Verif.isInsideBoundary at h
  split at h
  · assumption
  · simp at h

theorem boundary_of_ok (hs : Holds s cs) {i : Nat} {u : Unit}
    (h : ((s.isCharBoundary i).mapErr ErrFrom.from_ : Res Error Unit) = .ok u) : IsBoundary cs i := by
  by_cases hb : IsBoundary cs i
  · exact hb
  · rw [hs.isCharBoundary_false hb] at h; simp at h

/-- What a `replace_range` cut short may leave: the string as it was, or the new bytes with the old
length. -/
def Torn (m : M (ArrayString N) ε α) (s u : ArrayString N) : Prop :=
  u = s ∨ u = ⟨(m s).2.array, s.size⟩

/-- arraystring.rs:857-892, what `replace_range` does once it has the positions and the text. -/
def replaceRest (E : Env W) (start stop : Nat) (str : Bytes) : M (ArrayString N × W) Error Unit := do
  if start = stop ∧ str.isEmpty then pure ()
  else do
    view fun _ => checkInside E start stop
    view fun s => do
      let n ← len E s
      checkInside E stop n
    view fun _ => checkInside E str.length (ArrayString.capacity N)
    view fun s => tryUtf8 E (isCharBoundary E s start)
    view fun s => tryUtf8 E (isCharBoundary E s stop)
    view fun s => do
      let n ← len E s
      let a ← M.lift (addUsize n str.length)
      let b ← M.lift (addUsize a start)
      let total ← M.lift (subUsize b stop)
      checkInside E total (ArrayString.capacity N)
    -- unsafe block, lines 878-889
    let cutStart ← M.lift (ptrAdd N start)
    let cutEnd ← M.lift (ptrAdd N stop)
    let strEnd ← M.lift (ptrAdd N (cutStart + str.length))
    if cutEnd ≠ strEnd then do
      let n ← view fun s => len E s
      let n ← M.lift (subUsize n stop)
      let mem ← view fun s => M.lift (memCopy s.array cutEnd strEnd n)
      update fun s => { s with array := mem }
    else pure ()
    if ¬ str.isEmpty then do
      let mem ← view fun s => M.lift (memCopyFrom s.array str cutStart str.length)
      update fun s => { s with array := mem }
    else pure ()
    -- line 890
    let n ← view fun s => len E s
    let a ← M.lift (addUsize n str.length)
    let b ← M.lift (addUsize a start)
    let total ← M.lift (subUsize b stop)
    update fun s => { s with size := intoLossy total }

theorem replaceRange_split (r : RangeB) (a : AsRefStr W) :
    (replaceRange E r a : M (ArrayString N × W) Error Unit) = (do
      let str ← view fun _ => noErr a
      let stop ← view fun s => rangeEnd E r s
      view fun s => record E .debug (do
        let n ← len E s
        let l ← a
        let t ← a
        pure (pure (lit "Replace range (len: " ++ dec n ++ lit ") (" ++ dec (ArrayString.rangeStart r) ++ lit ".." ++
          dec stop ++ lit ") with (len: " ++ dec l.length ++ lit ") " ++ t)))
      replaceRest E (ArrayString.rangeStart r) stop str) := rfl

theorem sim_replaceRest (hE : Tame A E) (hN : N ≤ 255) (hs : Holds s cs) (r : RangeB) (b : Bytes) :
    Sim A (Torn (ArrayString.replaceRange r b) s) s s
      (replaceRest E (ArrayString.rangeStart r) (ArrayString.rangeEnd r s.len) b) (ArrayString.replaceRange r b) := by
  have hP : Torn (ArrayString.replaceRange r b) s s := .inl rfl
  have hM := usizeMax_ge
  generalize hT : Torn (ArrayString.replaceRange r b) s = P at hP ⊢
  unfold replaceRest ArrayString.replaceRange
  refine Sim.self ?_
  dsimp only []
  split
  · exact fun _ => .inl ⟨rfl, rfl⟩
  rename_i hne
  simp only [try_eq]
  refine Sim.check (calm_checkInside hE _ _) hP fun _ h1 => ?_
  refine Sim.check ((calm_len hE s).then (calm_checkInside hE _ _)) hP fun _ h2 => ?_
  refine Sim.check (calm_checkInside hE _ _) hP fun _ h3 => ?_
  refine Sim.check (calm_tryUtf8 hE (calm_isCharBoundary hE hs _)) hP fun _ h4 => ?_
  refine Sim.check (calm_tryUtf8 hE (calm_isCharBoundary hE hs _)) hP fun _ h5 => ?_
  replace h1 := inside_of_ok h1
  replace h2 := inside_of_ok h2
  replace h3 := inside_of_ok h3
  replace h4 := boundary_of_ok hs h4
  replace h5 := boundary_of_ok hs h5
  have hl : s.len ≤ N := hs.2.1
  have h3' : b.length ≤ N := h3
  generalize hst : ArrayString.rangeStart r = start at *
  generalize hsp : ArrayString.rangeEnd r s.len = stop at *
  have a1 := addUsize_ok (ε := Error) (show s.len + b.length ≤ usizeMax by omega)
  have a2 := addUsize_ok (ε := Error) (show s.len + b.length + start ≤ usizeMax by omega)
  have a3 := subUsize_ok (ε := Error) (show stop ≤ s.len + b.length + start by omega)
  simp only [a1, a2, a3, lift_ok]
  refine Sim.check ((calm_len hE s).then ?_) hP fun _ h6 => ?_
  · simp only [a1, a2, a3, lift_ok]
    exact calm_checkInside hE _ _
  have h6' := inside_of_ok h6
  unfold ArrayString.capacity at h6'
  have a4 := ptrAdd_ok (ε := Error) (show start ≤ N by omega)
  have a5 := ptrAdd_ok (ε := Error) (show stop ≤ N by omega)
  have a6 := ptrAdd_ok (ε := Error) (show start + b.length ≤ N by omega)
  have a7 := subUsize_ok (ε := Error) (show stop ≤ s.len from h2)
  simp only [a4, a5, a6, a7, lift_ok]
  -- the bytes written
  obtain ⟨p, m, q, hcs, hp, hpm⟩ := sliceOk_iff.1 (show SliceOk cs (start, stop) from ⟨h1, h4, h5⟩)
  simp only [byteLen_append] at hp hpm
  have hlen := hs.len
  rw [hcs] at hlen
  simp only [byteLen_append] at hlen
  have hsplit : s.array = utf8 p ++ utf8 m ++ utf8 q ++ s.array.drop (byteLen (p ++ m ++ q)) := by
    conv => lhs; rw [← List.take_append_drop (byteLen (p ++ m ++ q)) s.array]
    rw [← hcs, hs.take, hcs]; simp
  obtain ⟨mem1, mem2, e1, e2, -, -⟩ := replace_bytes (ε := Error) (W := b) hsplit
    (by simp only [length_utf8]; rw [hs.1]; omega)
  simp only [length_utf8] at e1 e2
  rw [show byteLen p + byteLen m = stop by omega, show byteLen q = s.len - stop by omega,
    show byteLen p = start by omega] at e1
  rw [show byteLen p = start by omega] at e2
  have hbase : ArrayString.replaceRange r b s = (.ok (), ⟨mem2, intoLossy (s.len + b.length + start - stop)⟩) := by
    unfold ArrayString.replaceRange
    rw [self_bind]
    rw [hst, hsp, if_neg hne]
    simp only [M.bind_apply, M.try_apply, M.lift_apply, a1, a2, a3, a4, a5, a6, a7, h6,
      isInsideBoundary_ok h1, isInsideBoundary_ok h2, isInsideBoundary_ok h3,
      hs.isCharBoundary_true h4, hs.isCharBoundary_true h5, Res.mapErr_ok, e1, e2, M.setSelf_apply]
  have hhalf : P ⟨mem2, s.size⟩ := by rw [← hT]; right; rw [hbase]
  rw [e1, lift_ok, e2, lift_ok]
  have tail : Sim A P ⟨mem2, s.size⟩ s (do
      let n ← view fun s => len E s
      let a ← M.lift (addUsize n b.length)
      let c ← M.lift (addUsize a start)
      let total ← M.lift (subUsize c stop)
      update fun s => { s with size := intoLossy total })
      (M.setSelf ⟨mem2, intoLossy (s.len + b.length + start - stop)⟩ : M (ArrayString N) Error Unit) := by
    refine Sim.skip (calm_len hE _) hhalf ?_
    rw [show (⟨mem2, s.size⟩ : ArrayString N).len = s.len from rfl, a1, lift_ok, a2, lift_ok, a3, lift_ok]
    exact fun _ => .inl ⟨rfl, rfl⟩
  have tail2 : Sim A P ⟨mem1, s.size⟩ s (do
      if ¬ b.isEmpty then do
        let mem ← view fun s => M.lift (memCopyFrom s.array b start b.length)
        update fun s => { s with array := mem }
      else pure ()
      let n ← view fun s => len E s
      let a ← M.lift (addUsize n b.length)
      let c ← M.lift (addUsize a start)
      let total ← M.lift (subUsize c stop)
      update fun s => { s with size := intoLossy total })
      (M.setSelf ⟨mem2, intoLossy (s.len + b.length + start - stop)⟩ : M (ArrayString N) Error Unit) := by
    by_cases hb : ¬ b.isEmpty
    · rw [if_pos hb] at e2 ⊢
      exact Sim.read (a := mem2) e2 tail
    · rw [if_neg hb] at e2 ⊢
      cases e2
      exact tail
  by_cases hc : stop ≠ start + b.length
  · rw [if_pos hc] at e1 ⊢
    refine Sim.skip (calm_len hE s) hP ?_
    rw [a7, lift_ok]
    exact Sim.read (a := mem1) e1 tail2
  · rw [if_neg hc] at e1 ⊢
    cases e1
    exact tail2

theorem sim_replaceRange (hE : Tame A E) (hN : N ≤ 255) (hs : Holds s cs) (r : RangeB) (b : Bytes) :
    Sim A (Torn (ArrayString.replaceRange r b) s) s s (replaceRange E r (text b)) (ArrayString.replaceRange r b) := by
  have hP : Torn (ArrayString.replaceRange r b) s s := .inl rfl
  rw [replaceRange_split]
  refine Sim.skip (calm_noErr (calm_text b)) hP ?_
  refine Sim.skip (calm_rangeEnd hE r s) hP ?_
  refine Sim.skip (calm_record hE ((calm_len hE s).then ((calm_text b).then ((calm_text b).then (calm_pure _))))
    (calm_pure _)) hP ?_
  exact sim_replaceRest hE hN hs r b

/-! ## What is left in memory -/

theorem replace_bytes_drop {arr W mem1 mem2 : Bytes} {src dst n start k : Nat} {c : Prop} [Decidable c]
    (e1 : (if c then (memCopy arr src dst n : Res ε Bytes) else .ok arr) = .ok mem1)
    (e2 : (if ¬ W.isEmpty then (memCopyFrom mem1 W start W.length : Res ε Bytes) else .ok mem1) = .ok mem2)
    (h1 : dst + n ≤ k) (h2 : start + W.length ≤ k) : mem2.drop k = arr.drop k := by
  have l1 : mem1.drop k = arr.drop k := by
    split at e1
    · unfold memCopy at e1
      split at e1
      · rename_i hh
        cases e1
        rw [List.drop_append, List.drop_drop]
        simp only [List.length_append, List.length_take, List.length_drop]
        rw [List.drop_eq_nil_of_le (by simp; omega), List.nil_append]
        congr 1
        omega
      · cases e1
    · cases e1; rfl
  rw [← l1]
  split at e2
  · unfold memCopyFrom at e2
    split at e2
    · rename_i hh
      cases e2
      rw [List.drop_append, List.drop_drop]
      simp only [List.length_append, List.length_take]
      rw [List.drop_eq_nil_of_le (by simp; omega), List.nil_append]
      congr 1
      omega
    · cases e2
  · cases e2; rfl

theorem bind_inv {σ : Type} {x : M σ ε α} {f : α → M σ ε β} {u v : σ} {b : β} (h : (x >>= f) u = (.ok b, v)) :
    ∃ a u', x u = (.ok a, u') ∧ f a u' = (.ok b, v) := by
  rw [M.bind_apply] at h
  rcases hx : x u with ⟨r, u'⟩
  rw [hx] at h
  cases r with
  | ok a => exact ⟨a, u', rfl, h⟩
  | err e => cases h
  | panic => cases h
  | ub => cases h
  | diverge => cases h

theorem lift_inv {σ : Type} {r : Res ε α} {f : α → M σ ε β} {u v : σ} {b : β}
    (h : (M.lift r >>= f) u = (.ok b, v)) : ∃ a, r = .ok a ∧ f a u = (.ok b, v) := by
  obtain ⟨a, u', h1, h2⟩ := bind_inv h
  cases h1
  exact ⟨a, rfl, h2⟩

theorem addUsize_inv {a b c : Nat} (h : (addUsize a b : Res ε Nat) = .ok c) (hab : a + b ≤ usizeMax) : c = a + b := by
  rw [addUsize_ok hab] at h; cases h; rfl
theorem subUsize_inv {a b c : Nat} (h : (subUsize a b : Res ε Nat) = .ok c) (hab : b ≤ a) : c = a - b := by
  rw [subUsize_ok hab] at h; cases h; rfl
theorem ptrAdd_inv {a b c : Nat} (h : (ptrAdd a b : Res ε Nat) = .ok c) : c = b := by
  unfold ptrAdd at h; split at h <;> cases h; rfl

/-- `replace_range` writes nothing past the new end of the text. -/
theorem replaceRange_drop (hN : N ≤ 255) {r : RangeB} {b : Bytes} {s' : ArrayString N}
    (h : ArrayString.replaceRange r b s = (.ok (), s')) (k : Nat) (hk : s'.len ≤ k) :
    s'.array.drop k = s.array.drop k := by
  unfold ArrayString.replaceRange at h
  rw [self_bind] at h
  split at h
  · cases h; rfl
  simp only [try_eq] at h
  obtain ⟨_, h1, h⟩ := lift_inv h
  obtain ⟨_, h2, h⟩ := lift_inv h
  obtain ⟨_, h3, h⟩ := lift_inv h
  obtain ⟨_, -, h⟩ := lift_inv h
  obtain ⟨_, -, h⟩ := lift_inv h
  obtain ⟨x, hx, h⟩ := lift_inv h
  obtain ⟨y, hy, h⟩ := lift_inv h
  obtain ⟨z, hz, h⟩ := lift_inv h
  obtain ⟨_, h4, h⟩ := lift_inv h
  obtain ⟨cutStart, h5, h⟩ := lift_inv h
  obtain ⟨cutEnd, h6, h⟩ := lift_inv h
  obtain ⟨strEnd, h7, h⟩ := lift_inv h
  obtain ⟨n, h8, h⟩ := lift_inv h
  obtain ⟨mem1, e1, h⟩ := lift_inv h
  obtain ⟨mem2, e2, h⟩ := lift_inv h
  obtain ⟨x', hx', h⟩ := lift_inv h
  obtain ⟨y', hy', h⟩ := lift_inv h
  obtain ⟨z', hz', h⟩ := lift_inv h
  cases h
  have h1 := inside_of_ok h1
  have h2 := inside_of_ok h2
  have h4 := inside_of_ok h4
  have hM := usizeMax_ge
  have h3 := inside_of_ok h3
  have hlen : s.len ≤ 255 := Nat.le_of_lt_succ s.size.toNat_lt
  unfold ArrayString.capacity at h3
  have hx := addUsize_inv hx (by omega)
  have hy := addUsize_inv hy (by omega)
  have hz := subUsize_inv hz (by omega)
  have hx' := addUsize_inv hx' (by omega)
  have hy' := addUsize_inv hy' (by omega)
  have hz' := subUsize_inv hz' (by omega)
  have h5 := ptrAdd_inv h5
  have h6 := ptrAdd_inv h6
  have h7 := ptrAdd_inv h7
  have h8 := subUsize_inv h8 h2
  unfold ArrayString.capacity at h4
  have hk' : z' ≤ k := by
    have : (intoLossy z').toNat = z' := by
      unfold intoLossy
      rw [UInt8.toNat_ofNat']
      exact Nat.mod_eq_of_lt (by omega)
    rwa [ArrayString.len, this] at hk
  exact replace_bytes_drop e1 e2 (by omega) (by omega)

theorem array_eq (h : Holds s cs) : s.array = utf8 cs ++ s.array.drop (byteLen cs) := by
  conv => lhs; rw [← List.take_append_drop (byteLen cs) s.array]
  rw [h.take]

theorem overwrite_self (h : Holds s cs) : overwrite s cs = s := by
  unfold overwrite
  rw [← array_eq h]

/-- The string after an edit cut short: as it was, or overwritten with the text of `f`. -/
def Cut (s f u : ArrayString N) : Prop := u = s ∨ ∃ new, Holds f new ∧ u = overwrite s new

theorem cut_of_torn (hN : N ≤ 255) (hs : Holds s cs) {r : RangeB} {w : List Char} {u : ArrayString N}
    (h : Torn (ArrayString.replaceRange r (utf8 w)) s u) : Cut s (ArrayString.replaceRange r (utf8 w) s).2 u := by
  rcases h with rfl | rfl
  · exact .inl rfl
  rcases replaceRange_total hN r w hs with ⟨s', new, e, hh⟩ | ⟨e, h⟩
  · right
    refine ⟨new, by rw [e]; exact hh, ?_⟩
    rw [e]
    unfold overwrite
    rw [← replaceRange_drop hN e _ (Nat.le_of_eq hh.len), ← array_eq hh]
  · left; rw [h]

/-- Appending does not touch the text that was there. -/
theorem holds_overwrite {w : List Char} (hs : Holds s cs) (hf : byteLen (cs ++ w) ≤ N) :
    Holds (overwrite s (cs ++ w)) cs := by
  have hl := hs.len
  refine ⟨?_, hs.2.1, ?_⟩
  · have := hs.1
    simp [overwrite] at hf ⊢
    omega
  · show (utf8 (cs ++ w) ++ _).take s.len = _
    rw [hl, utf8_append, List.append_assoc, List.take_left' (by simp)]

/-- A simulation whose crash states are described with the state the method would have ended with. -/
def SimF (A : Crash → Prop) (F : ArrayString N → ArrayString N → Prop) (s : ArrayString N)
    (x : M (ArrayString N × W) ε α) (m : M (ArrayString N) ε α) : Prop := Sim A (F (m s).2) s s x m

variable {F : ArrayString N → ArrayString N → Prop}

theorem SimF.skip {f : ArrayString N → M W ε α} {a : α} {g : α → M (ArrayString N × W) ε β}
    {m : M (ArrayString N) ε β} (hf : Calm A (f s) (.ok a)) (hP : ∀ f, F f s) (hg : SimF A F s (g a) m) :
    SimF A F s (view f >>= g) m := Sim.skip hf (hP _) hg

theorem SimF.check {f : ArrayString N → M W ε α} {r : Res ε α} {g : α → M (ArrayString N × W) ε β}
    {h : α → M (ArrayString N) ε β} (hf : Calm A (f s) r) (hP : ∀ f, F f s)
    (hg : ∀ a, r = .ok a → SimF A F s (g a) (h a)) :
    SimF A F s (view f >>= g) (M.lift r >>= h) := by
  refine Sim.check hf (hP _) ?_
  rintro a rfl
  exact hg a rfl

theorem SimF.step {r : Res ε α} {g : α → M (ArrayString N × W) ε β} {h : α → M (ArrayString N) ε β}
    (hg : ∀ a, r = .ok a → SimF A F s (g a) (h a)) : SimF A F s (M.lift r >>= g) (M.lift r >>= h) := by
  refine Sim.step ?_
  rintro a rfl
  exact hg a rfl

theorem SimF.self {x : M (ArrayString N × W) ε β} {f : ArrayString N → M (ArrayString N) ε β}
    (h : SimF A F s x (f s)) : SimF A F s x (M.self >>= f) := h

theorem sim_pure (a : α) : Sim A P s s (pure a : M (ArrayString N × W) ε α) (pure a) := fun _ => .inl ⟨rfl, rfl⟩
theorem sim_lift (r : Res ε α) : Sim A P s s (M.lift r : M (ArrayString N × W) ε α) (M.lift r) :=
  fun _ => .inl ⟨rfl, rfl⟩

theorem sim_mapErr {x : M (ArrayString N × W) ε α} {m : M (ArrayString N) ε α} {f : ε → ε'}
    (h : Sim A P s t x m) : Sim A P s t (M.mapErr f x) (M.mapErr f m) := by
  intro w
  simp only [M.mapErr_apply]
  rcases h w with ⟨h1, h2⟩ | ⟨c, hc, h1, h2⟩
  · exact .inl ⟨by rw [h1], h2⟩
  · refine .inr ⟨c, hc, ?_, h2⟩
    rw [h1]; cases c <;> rfl

theorem sim_attempt {x : M (ArrayString N × W) ε α} {m : M (ArrayString N) ε α}
    (h : Sim A P s t x m) : Sim A P s t (M.attempt x : M _ ε' _) (M.attempt m) := by
  intro w
  simp only [M.attempt_apply]
  rcases h w with ⟨h1, h2⟩ | ⟨c, hc, h1, h2⟩
  · exact .inl ⟨by rw [h1], h2⟩
  · refine .inr ⟨c, hc, ?_, h2⟩
    rw [h1]; cases c <;> rfl

theorem bind_pure_snd {σ : Type} (m : M σ ε α) (f : α → β) (u : σ) :
    ((m >>= fun a => (pure (f a) : M σ ε β)) u).2 = (m u).2 := by
  rw [M.bind_apply]
  rcases m u with ⟨r, u'⟩
  cases r <;> rfl

theorem SimF.map {x : M (ArrayString N × W) ε α} {m : M (ArrayString N) ε α} {f : α → β} (h : SimF A F s x m) :
    SimF A F s (x >>= fun a => pure (f a)) (m >>= fun a => pure (f a)) := by
  unfold SimF
  rw [bind_pure_snd]
  exact Sim.bind h fun a u _ => sim_pure _

/-! ## The mutators -/

theorem simF_replaceRange (hE : Tame A E) (hN : N ≤ 255) (hs : Holds s cs) (r : RangeB) (w : List Char) :
    SimF A (Cut s) s (replaceRange E r (text (utf8 w))) (ArrayString.replaceRange r (utf8 w)) :=
  (sim_replaceRange hE hN hs r (utf8 w)).mono fun _ h => cut_of_torn hN hs h

theorem sim_tryPushStr (hE : Tame A E) (hN : N ≤ 255) (hs : Holds s cs) (w : List Char) :
    Sim A (Holds · cs) s s (tryPushStr E (text (utf8 w))) (ArrayString.tryPushStr (utf8 w)) := by
  unfold tryPushStr ArrayString.tryPushStr
  refine Sim.self ?_
  refine Sim.skip (calm_record hE ((calm_text _).then (calm_pure _)) (calm_pure _)) hs ?_
  refine Sim.skip (calm_len hE s) hs ?_
  refine sim_mapErr ((simF_replaceRange hE hN hs _ w).mono ?_)
  rintro u (rfl | ⟨new, hn, rfl⟩)
  · exact hs
  · by_cases hf : byteLen cs + byteLen w ≤ N
    · obtain ⟨s', e, hh⟩ := replaceRange_ok hN (p := cs) (m := []) (q := []) (w := w)
        (r := .range s.len s.len) (by simpa using hs) hs.len (by show s.len = _; simpa using hs.len) (by simpa using hf)
      rw [e] at hn
      have := hn.unique hh
      simp only [List.append_nil] at this
      subst this
      exact holds_overwrite hs (by simpa using hf)
    · have e : ArrayString.tryPushStr (utf8 w) s = (.err {}, s) := tryPushStr_err hN hs (by omega)
      have e2 : (ArrayString.replaceRange (.range s.len s.len) (utf8 w) s).2 = s := by
        have := congrArg Prod.snd e
        exact this
      rw [e2] at hn
      rw [hn.unique hs, overwrite_self hs]
      exact hs

theorem sim_pushStrTruncate (hE : Tame A E) (hN : N ≤ 255) (hs : Holds s cs) {x : AsRefStr W} {w : List Char}
    (hx : Calm A x (.ok (utf8 w))) :
    Sim A (Holds · cs) s s (pushStrTruncate E x : M _ ε Unit) (ArrayString.pushStrTruncate (utf8 w)) := by
  unfold pushStrTruncate ArrayString.pushStrTruncate
  refine Sim.self ?_
  refine Sim.skip (calm_record hE (hx.then (calm_pure _)) (calm_pure _)) hs ?_
  refine Sim.skip (calm_noErr hx) hs ?_
  refine Sim.skip (calm_len hE s) hs ?_
  refine Sim.step fun room _ => ?_
  refine Sim.check (calm_truncateStr hE _ _) hs fun t ht => ?_
  rw [truncateStr_utf8] at ht
  cases ht
  exact Sim.bind (sim_attempt (sim_tryPushStr hE hN hs _)) fun _ _ _ => sim_pure ()

theorem sim_tryPush (hE : Tame A E) (hN : N ≤ 255) (hs : Holds s cs) (c : Char) :
    Sim A (Holds · cs) s s (tryPush E c) (ArrayString.tryPush c) := by
  unfold tryPush ArrayString.tryPush
  refine Sim.skip (calm_note hE _ _) hs ?_
  rw [encodeUtf8_eq]
  exact sim_tryPushStr hE hN hs _

theorem sim_truncate (hE : Tame A E) (hs : Holds s cs) (n : Nat) :
    Sim A (· = s) s s (truncate E n) (ArrayString.truncate n) := by
  unfold truncate ArrayString.truncate
  refine Sim.self ?_
  refine Sim.skip (calm_note hE _ _) rfl ?_
  refine Sim.skip (calm_len hE s) rfl ?_
  refine Sim.check (calm_isCharBoundary hE hs _) rfl fun _ _ => ?_
  exact fun _ => .inl ⟨rfl, rfl⟩

theorem sim_pop (hE : Tame A E) (hs : Holds s cs) :
    Sim A (· = s) s s (pop E : M _ ε _) ArrayString.pop := by
  unfold pop ArrayString.pop
  refine Sim.self ?_
  refine Sim.skip (calm_note hE _ _) rfl ?_
  rw [hs.asStr]
  refine Sim.check (calm_asStr hE hs) rfl fun b _ => ?_
  cases (Str.chars b).getLast? with
  | none => exact sim_pure _
  | some c =>
    refine Sim.check (calm_lift (subU8 s.size (intoLossy (Str.lenUtf8 c)))) rfl fun _ _ => ?_
    exact fun _ => .inl ⟨rfl, rfl⟩

theorem sim_clear (hE : Tame A E) : Sim A (· = s) s s (clear E : M _ ε _) ArrayString.clear := by
  unfold clear ArrayString.clear
  refine Sim.self ?_
  refine Sim.skip (calm_note hE _ _) rfl ?_
  exact fun _ => .inl ⟨rfl, rfl⟩

theorem simF_tryInsertStr (hE : Tame A E) (hN : N ≤ 255) (hs : Holds s cs) (i : Nat) (w : List Char) :
    SimF A (Cut s) s (tryInsertStr E i (text (utf8 w))) (ArrayString.tryInsertStr i (utf8 w)) := by
  have hP : ∀ f, Cut s f s := fun _ => .inl rfl
  unfold tryInsertStr ArrayString.tryInsertStr
  refine SimF.self ?_
  obtain ⟨d, hd⟩ := calm_showDebug hE hs
  refine SimF.skip (calm_record hE ((calm_text _).then (calm_pure _)) (hd.then (calm_pure _))) hP ?_
  rw [try_eq]
  refine SimF.check ((calm_len hE s).then (calm_checkInside hE _ _)) hP fun _ _ => ?_
  exact simF_replaceRange hE hN hs _ w

theorem simF_tryInsert (hE : Tame A E) (hN : N ≤ 255) (hs : Holds s cs) (i : Nat) (c : Char) :
    SimF A (Cut s) s (tryInsert E i c) (ArrayString.tryInsert i c) := by
  unfold tryInsert ArrayString.tryInsert
  rw [encodeUtf8_eq]
  exact simF_tryInsertStr hE hN hs i _

theorem simF_insertStrTruncate (hE : Tame A E) (hN : N ≤ 255) (hs : Holds s cs) (i : Nat) (w : List Char) :
    SimF A (Cut s) s (insertStrTruncate E i (text (utf8 w))) (ArrayString.insertStrTruncate i (utf8 w)) := by
  have hP : ∀ f, Cut s f s := fun _ => .inl rfl
  unfold insertStrTruncate ArrayString.insertStrTruncate
  refine SimF.self ?_
  refine SimF.skip (calm_record hE ((calm_text _).then (calm_pure _)) ((calm_asStr hE hs).then (calm_pure _))) hP ?_
  refine SimF.skip (calm_noErr (calm_text _)) hP ?_
  refine SimF.skip (calm_len hE s) hP ?_
  refine SimF.step fun room _ => ?_
  refine SimF.check (calm_truncateStr hE _ _) hP fun t ht => ?_
  rw [truncateStr_utf8] at ht
  cases ht
  exact simF_tryInsertStr hE hN hs i _

theorem calm_removeScan (hE : Tame A E) (hN : N ≤ 255) {p q : List Char} {c : Char} (hs : Holds s (p ++ c :: q))
    (k : Nat) : k < c.utf8Size → ∀ fuel, k < fuel →
    Calm A (removeScan E s fuel (byteLen p + c.utf8Size - k)) (.ok (byteLen p + c.utf8Size)) := by
  have hM := usizeMax_ge
  have hle := hs.le
  simp at hle
  induction k with
  | zero =>
    intro _ fuel hf
    obtain ⟨fuel, rfl⟩ : ∃ f, fuel = f + 1 := ⟨fuel - 1, by omega⟩
    unfold removeScan
    refine (calm_asStr hE hs).then ?_
    rw [if_pos ((isCharBoundary_utf8 _ _).2 ⟨p ++ [c], q, by simp, by simp⟩)]
    exact calm_pure _
  | succ k ih =>
    intro hk fuel hf
    obtain ⟨fuel, rfl⟩ : ∃ f, fuel = f + 1 := ⟨fuel - 1, by omega⟩
    unfold removeScan
    refine (calm_asStr hE hs).then ?_
    rw [if_neg]
    · rw [addUsize_ok (by omega), lift_ok,
        show byteLen p + c.utf8Size - (k + 1) + 1 = byteLen p + c.utf8Size - k by omega]
      exact ih (by omega) fuel (by omega)
    · rw [isCharBoundary_utf8]
      rintro ⟨a, b, he, hb⟩
      rcases List.append_eq_append_iff.1 he with ⟨x, rfl, hx⟩ | ⟨x, rfl, hx⟩
      · cases x with
        | nil => simp at hb; omega
        | cons d x =>
          simp at hx hb
          rw [← hx.1] at hb
          omega
      · simp at hb; omega

theorem cut_refl (f : ArrayString N) : Cut s f s := .inl rfl

/-- The character at a boundary before the end. -/
theorem boundary_cons {i : Nat} (hb : IsBoundary cs i) (h : i < byteLen cs) :
    ∃ p c q, cs = p ++ c :: q ∧ i = byteLen p := by
  obtain ⟨p, q, rfl, rfl⟩ := hb
  cases q with
  | nil => simp at h
  | cons c q => exact ⟨p, c, q, rfl, rfl⟩

theorem simF_remove (hE : Tame A E) (hN : N ≤ 255) (hs : Holds s cs) (i : Nat) :
    SimF A (Cut s) s (remove E i) (ArrayString.remove i) := by
  have hM := usizeMax_ge
  have hle := hs.le
  have hlen := hs.len
  unfold remove ArrayString.remove
  refine SimF.self ?_
  refine SimF.skip (calm_note hE _ _) cut_refl ?_
  simp only [try_eq]
  refine SimF.check ((calm_len hE s).then (calm_checkInside hE _ _)) cut_refl fun _ h1 => ?_
  refine SimF.check (calm_tryUtf8 hE (calm_isCharBoundary hE hs _)) cut_refl fun _ h2 => ?_
  have h1 := inside_of_ok h1
  unfold saturatingAdd at h1
  obtain ⟨p, c, q, rfl, rfl⟩ := boundary_cons (boundary_of_ok hs h2) (by omega)
  have hc := utf8Size_pos c
  have hc4 := c.utf8Size_le_four
  simp at hle
  have hscan := removeScan_ok hs hN (c.utf8Size - 1) (by omega)
  have hscan' := calm_removeScan hE hN hs (c.utf8Size - 1) (by omega) 256 (by omega)
  rw [show byteLen p + c.utf8Size - (c.utf8Size - 1) = byteLen p + 1 by omega] at hscan hscan'
  refine SimF.skip (calm_len hE s) cut_refl ?_
  rw [if_neg (by omega), addUsize_ok (by omega), lift_ok, lift_ok, hscan]
  refine SimF.check hscan' cut_refl ?_
  rintro _ h
  cases h
  rw [hs.asStr]
  refine SimF.check (calm_asStr hE hs) cut_refl ?_
  rintro _ h
  cases h
  cases Str.get? (utf8 (p ++ c :: q)) (byteLen p) (byteLen p + c.utf8Size) with
  | none => exact sim_lift _
  | some sub =>
    dsimp only []
    cases (Str.chars sub).head? with
    | none => exact sim_lift _
    | some ch =>
      refine SimF.step fun stop _ => ?_
      exact (simF_replaceRange hE hN hs _ []).map (f := fun _ => ch)

theorem trim_positions (cs : List Char) :
    (trimText cs = [] ∧ ArrayString.trimEnd (ArrayString.trimStart (byteLen cs) (indexed 0 cs)) (byteLen cs)
      (indexed 0 cs).reverse = none) ∨
    ∃ pre post, cs = pre ++ trimText cs ++ post ∧ (∀ c ∈ pre, IsWhite c) ∧ (∀ c ∈ post, IsWhite c) ∧
      ArrayString.trimStart (byteLen cs) (indexed 0 cs) = byteLen pre ∧
      ArrayString.trimEnd (byteLen pre) (byteLen cs) (indexed 0 cs).reverse = some (byteLen (pre ++ trimText cs)) := by
  have ht := trimmed_trimText cs
  generalize trimText cs = out at ht ⊢
  by_cases hcs : cs = []
  · subst hcs
    have : out = [] := by
      obtain ⟨⟨pre, post, h, _⟩, _⟩ := ht
      simp at h; exact h.2.1
    subst this
    exact .inr ⟨[], [], rfl, by simp, by simp, rfl, rfl⟩
  by_cases hout : out = []
  · subst hout
    left
    have hw := Trimmed.nil ht
    have e1 : ArrayString.trimStart (byteLen cs) (indexed 0 cs) = byteLen cs := by
      have := trimStart_skip hw (byteLen cs) [] 0
      simpa [ArrayString.trimStart] using this
    refine ⟨rfl, ?_⟩
    rw [e1]
    obtain ⟨init, d, rfl⟩ : ∃ init d, cs = init ++ [d] := exists_snoc hcs
    have := utf8Size_pos d
    rw [indexed_append]
    simp only [indexed, List.reverse_append, List.reverse_cons, List.reverse_nil, List.nil_append,
      List.cons_append, ArrayString.trimEnd]
    rw [if_pos (by simp; omega)]
  · right
    obtain ⟨⟨pre, post, rfl, h1, h2⟩, h3, h4⟩ := ht
    obtain ⟨a, out', rfl⟩ : ∃ a t, out = a :: t := by cases out <;> simp_all
    have ha := h3 a rfl
    obtain ⟨init, d, hid⟩ : ∃ init d, a :: out' = init ++ [d] := exists_snoc (by simp)
    have hd := h4 d (by rw [hid]; simp)
    refine ⟨pre, post, rfl, h1, h2, ?_, ?_⟩
    · rw [List.append_assoc, indexed_append, trimStart_skip h1]
      simp [indexed, ArrayString.trimStart, isWhitespace_eq, ha]
    · rw [indexed_append, List.reverse_append, byteLen_append]
      have := trimEnd_skip h2 (byteLen pre) (indexed 0 (pre ++ a :: out')).reverse
        (0 + byteLen (pre ++ a :: out')) (by simp)
      rw [Nat.zero_add] at this
      rw [Nat.zero_add, this, hid, ← List.append_assoc, indexed_append]
      simp [indexed, ArrayString.trimEnd, isWhitespace_eq, hd]

theorem overwrite_prefix {a b : List Char} (h : Holds s (a ++ b)) : overwrite s a = s := by
  unfold overwrite
  have : utf8 a ++ s.array.drop (byteLen a) = s.array := by
    have e : s.array.take (byteLen a) = utf8 a := by
      have := congrArg (List.take (byteLen a)) h.take
      rw [List.take_take, utf8_append, List.take_left' (by simp)] at this
      rw [← this]
      simp
    conv => rhs; rw [← List.take_append_drop (byteLen a) s.array]
    rw [e]
  rw [this]

theorem sim_trim (hE : Tame A E) (hN : N ≤ 255) (hs : Holds s cs) :
    Sim A (TrimCut s cs) s s (trim E : M _ ε Unit) ArrayString.trim := by
  have hP : TrimCut s cs s := .inl rfl
  have hlen := hs.len
  have hle := hs.le
  unfold trim ArrayString.trim
  refine Sim.self ?_
  obtain ⟨d, hd⟩ := calm_showDebug hE hs
  refine Sim.skip (calm_record hE (calm_pure _) (hd.then (calm_pure _))) hP ?_
  refine Sim.skip (calm_len hE s) hP ?_
  rw [hs.asStr, lift_ok]
  refine Sim.skip (calm_asStr hE hs) hP ?_
  refine Sim.skip (calm_len hE s) hP ?_
  refine Sim.skip (calm_asStr hE hs) hP ?_
  simp only [charIndices_utf8, hlen]
  rcases trim_positions cs with ⟨_, h2⟩ | ⟨pre, post, h1, h2, h3, h4, h5⟩
  · rw [h2]
    exact fun _ => .inl ⟨rfl, rfl⟩
  · rw [h4, h5]
    dsimp only []
    generalize hout : trimText cs = out at *
    have hs' := hs
    rw [h1] at hs'
    rw [h1] at hle hlen
    obtain ⟨s1, r1, hh1⟩ := replaceRange_ok hN (p := pre ++ out) (m := post) (q := []) (w := [])
      (r := .from_ (byteLen (pre ++ out))) (by simpa using hs') rfl
      (by simp only [ArrayString.rangeEnd, RangeB.from_, hlen, byteLen_append]) (by simp at hle ⊢; omega)
    simp only [List.append_nil] at hh1
    obtain ⟨s2, r2, hh2⟩ := replaceRange_ok hN (p := []) (m := pre) (q := out) (w := [])
      (r := .to (byteLen pre)) (by simpa using hh1) rfl
      (by simp [ArrayString.rangeEnd, RangeB.to]) (by simp at hle ⊢; omega)
    simp only [List.nil_append] at hh2
    have hT : ∀ u, (u = s1 ∨ u = overwrite s1 out) → TrimCut s cs u := fun u hu => by
      right
      rw [hout]
      exact ⟨pre, post, h1, h2, h3, s1, hh1, hu⟩
    refine Sim.bind (sim_attempt ((simF_replaceRange hE hN hs (.from_ (byteLen (pre ++ out))) []).mono ?_)) ?_
    · rintro u (rfl | ⟨new, hn, rfl⟩)
      · exact hP
      · rw [r1] at hn
        rw [hn.unique hh1, overwrite_prefix hs']
        exact hP
    intro a u hu
    rw [M.attempt_apply] at hu
    simp only [utf8_nil] at r1 r2
    rw [r1] at hu
    cases hu
    refine Sim.bind (sim_attempt ((simF_replaceRange hE hN hh1 (.to (byteLen pre)) []).mono ?_)) ?_
    · rintro u (rfl | ⟨new, hn, rfl⟩)
      · exact hT _ (.inl rfl)
      · rw [utf8_nil, r2] at hn
        rw [hn.unique hh2]
        exact hT _ (.inr rfl)
    · exact fun _ _ _ => sim_pure ()

/-! ## Constructors -/

theorem onLocal_fst (x : M (ArrayString N × W) ε α) (s : ArrayString N) (w : W) :
    (onLocal x s w).1 = (match (x (s, w)).1 with
      | .ok a => .ok (a, (x (s, w)).2.1)
      | .err e => .err e
      | .panic => .panic
      | .ub => .ub
      | .diverge => .diverge) := by
  unfold onLocal
  rcases x (s, w) with ⟨r, p⟩
  cases r <;> rfl

theorem base_onLocal (m : M (ArrayString N) ε α) (s : ArrayString N) :
    m.onLocal s = (match (m s).1 with
      | .ok a => .ok (a, (m s).2)
      | .err e => .err e
      | .panic => .panic
      | .ub => .ub
      | .diverge => .diverge) := by
  unfold M.onLocal
  rcases m s with ⟨r, p⟩
  cases r <;> rfl

theorem calm_onLocal {x : M (ArrayString N × W) ε α} {m : M (ArrayString N) ε α} (h : Sim A P s s x m) :
    Calm A (onLocal x s) (m.onLocal s) := by
  intro w
  rw [onLocal_fst, base_onLocal]
  rcases h w with ⟨h1, h2⟩ | ⟨c, hc, h1, _⟩
  · left; rw [h1, h2]
  · right; refine ⟨c, hc, ?_⟩; rw [h1]; cases c <;> rfl

/-- A step of a loop on a local string that returns normally. -/
theorem calm_onLocal_ok {x : M (ArrayString N × W) ε α} {m : M (ArrayString N) ε α} {a : α}
    {s' : ArrayString N} {f : α → M (ArrayString N × W) ε β} {r : Res ε (β × ArrayString N)}
    (h : Sim A P s s x m) (hm : m s = (.ok a, s')) (hf : Calm A (onLocal (f a) s') r) :
    Calm A (onLocal (x >>= f) s) r := by
  intro w
  rw [onLocal_fst]
  rcases h w with ⟨h1, h2⟩ | ⟨c, hc, h1, _⟩
  · rw [hm] at h1 h2
    rw [bind_val h1]
    have := hf (x (s, w)).2.2
    rw [onLocal_fst] at this
    simp only at h2
    rw [← h2] at this
    exact this
  · right; refine ⟨c, hc, ?_⟩; rw [bind_crash h1]; cases c <;> rfl

theorem calm_onLocal_err {x : M (ArrayString N × W) ε α} {m : M (ArrayString N) ε α} {e : ε}
    {s' : ArrayString N} {f : α → M (ArrayString N × W) ε β}
    (h : Sim A P s s x m) (hm : m s = (.err e, s')) :
    Calm A (onLocal (x >>= f) s) (.err e) := by
  intro w
  rw [onLocal_fst, bind_fst_snd]
  rcases h w with ⟨h1, h2⟩ | ⟨c, hc, h1, _⟩
  · rw [hm] at h1
    left; rw [h1]
  · right; refine ⟨c, hc, ?_⟩; rw [h1]; cases c <;> rfl

theorem calm_onLocal_pure (a : α) : Calm A (onLocal (pure a : M (ArrayString N × W) ε α) s) (.ok (a, s)) :=
  fun _ => .inl rfl

theorem calm_onLocal_lift_err (e : ε) :
    Calm A (onLocal (M.lift (.err e) : M (ArrayString N × W) ε α) s) (.err e) := fun _ => .inl rfl

theorem calm_onLocal_lift_panic :
    Calm A (onLocal (M.lift .panic : M (ArrayString N × W) ε α) s) .panic := fun _ => .inl rfl

theorem calm_tryFromStr (hE : Tame A E) (hN : N ≤ 255) (w : List Char) :
    Calm A (tryFromStr E (text (utf8 w)) : M W _ (ArrayString N)) (ArrayString.tryFromStr (utf8 w)) := by
  unfold tryFromStr ArrayString.tryFromStr
  refine (calm_record hE ((calm_text _).then (calm_pure _)) (calm_pure _)).then ?_
  exact (calm_onLocal (sim_tryPushStr hE hN holds_new w)).bind fun _ _ => calm_pure _

theorem calm_fromStrTruncate (hE : Tame A E) (hN : N ≤ 255) (w : List Char) :
    Calm A (fromStrTruncate E (text (utf8 w)) : M W ε (ArrayString N)) (ArrayString.fromStrTruncate (utf8 w)) := by
  unfold fromStrTruncate ArrayString.fromStrTruncate
  refine (calm_record hE ((calm_text _).then (calm_pure _)) (calm_pure _)).then ?_
  exact (calm_onLocal (sim_pushStrTruncate hE hN holds_new (calm_text _))).bind fun _ _ => calm_pure _

/-- A string and the rest of an iterator, without the rest. -/
def dropRest {κ : Type} (r : Res ε (ArrayString N × κ)) : Res ε (Unit × ArrayString N) := do
  let p ← r
  pure ((), p.1)

theorem calm_tryFromIteratorLoop (hE : Tame A E) (hN : N ≤ 255) (ws : Script (List Char)) :
    ∀ {out : ArrayString N} {cs : List Char}, Holds out cs →
    Calm A (onLocal (tryFromIteratorLoop E (ws.map (Option.map fun w => text (utf8 w)))) out)
      (dropRest (ArrayString.tryFromIteratorLoop scriptIter (ws.map (Option.map utf8)) out)) := by
  induction ws with
  | nil =>
    intro out cs _
    rw [ArrayString.tryFromIteratorLoop]
    exact calm_onLocal_pure ()
  | cons w ws ih =>
    intro out cs h
    rw [ArrayString.tryFromIteratorLoop]
    cases w with
    | none => exact calm_onLocal_lift_panic
    | some w =>
      by_cases hf : byteLen cs + byteLen w ≤ N
      · obtain ⟨out', e, h'⟩ := tryPushStr_ok hN h hf
        refine calm_onLocal_ok (sim_tryPushStr hE hN h w) e ?_
        simp only [List.map_cons, Option.map_some, scriptIter, e]
        exact ih h'
      · have e := tryPushStr_err hN h (w := w) (by omega)
        simp only [List.map_cons, Option.map_some, scriptIter, e]
        exact calm_onLocal_err (sim_tryPushStr hE hN h w) e

theorem calm_tryFromIterator (hE : Tame A E) (hN : N ≤ 255) (ws : Script (List Char)) :
    Calm A (tryFromIterator E (ws.map (Option.map fun w => text (utf8 w))) : M W _ (ArrayString N))
      (do let p ← ArrayString.tryFromIterator scriptIter (ws.map (Option.map utf8)); pure p.1) := by
  refine (calm_note hE _ _).then ?_
  have := (calm_tryFromIteratorLoop hE hN ws holds_new).bind
    (f := fun p => (pure p.2 : M W _ (ArrayString N))) (g := fun p => pure p.2) fun _ _ => calm_pure _
  have e : ∀ r : Res OutOfBounds (ArrayString N × Script Bytes),
      (dropRest r >>= fun p => (pure p.2 : Res OutOfBounds (ArrayString N))) = (do let p ← r; pure p.1) := by
    intro r; cases r <;> rfl
  rw [e] at this
  exact this

theorem calm_fromIteratorTruncateLoop (hE : Tame A E) (hN : N ≤ 255) (ws : Script (List Char × List Char)) :
    ∀ {out : ArrayString N} {cs : List Char}, Holds out cs →
    Calm A (onLocal (fromIteratorTruncateLoop E (ws.map (Option.map fun p => (text (utf8 p.1), text (utf8 p.2)))) :
        M _ ε Unit) out)
      (dropRest (ArrayString.fromIteratorTruncateLoop scriptIter
        (ws.map (Option.map fun p => ⟨utf8 p.1, utf8 p.2⟩)) out)) := by
  induction ws with
  | nil =>
    intro out cs _
    rw [ArrayString.fromIteratorTruncateLoop]
    exact calm_onLocal_pure ()
  | cons w ws ih =>
    intro out cs h
    rw [ArrayString.fromIteratorTruncateLoop]
    cases w with
    | none => exact calm_onLocal_lift_panic
    | some w =>
      have hsim := sim_attempt (ε' := ε) (sim_tryPushStr hE hN h w.1)
      have hview : Sim A (Holds · cs) out out (view fun _ => noErr (text (utf8 w.1)) : M (ArrayString N × W) ε Bytes)
          (pure (utf8 w.1)) := fun _ => .inl ⟨rfl, rfl⟩
      refine calm_onLocal_ok hview rfl ?_
      by_cases hf : byteLen cs + byteLen w.1 ≤ N
      · obtain ⟨out', e, h'⟩ := tryPushStr_ok hN h hf
        refine calm_onLocal_ok hsim (by rw [M.attempt_apply, e]; rfl) ?_
        simp only [List.map_cons, Option.map_some, scriptIter, e]
        exact ih h'
      · have e := tryPushStr_err hN h (w := w.1) (by omega)
        refine calm_onLocal_ok hsim (by rw [M.attempt_apply, e]; rfl) ?_
        obtain ⟨out', e', h'⟩ := pushStrTruncate_ok (ε := ε) hN h (w := w.2)
        simp only [List.map_cons, Option.map_some, scriptIter, e, e']
        have := calm_onLocal (sim_pushStrTruncate (ε := ε) hE hN h (calm_text (utf8 w.2)))
        rw [base_onLocal, e'] at this
        exact this

theorem calm_fromIteratorTruncate (hE : Tame A E) (hN : N ≤ 255) (ws : Script (List Char × List Char)) :
    Calm A (fromIteratorTruncate E (ws.map (Option.map fun p => (text (utf8 p.1), text (utf8 p.2)))) :
        M W ε (ArrayString N))
      (do
        let p ← ArrayString.fromIteratorTruncate scriptIter (ws.map (Option.map fun p => ⟨utf8 p.1, utf8 p.2⟩))
        pure p.1) := by
  refine (calm_note hE _ _).then ?_
  have := (calm_fromIteratorTruncateLoop (ε := ε) hE hN ws holds_new).bind
    (f := fun p => (pure p.2 : M W _ (ArrayString N))) (g := fun p => pure p.2) fun _ _ => calm_pure _
  have e : ∀ r : Res ε (ArrayString N × Script ArrayString.AsRefTwice),
      (dropRest r >>= fun p => (pure p.2 : Res ε (ArrayString N))) = (do let p ← r; pure p.1) := by
    intro r; cases r <;> rfl
  rw [e] at this
  exact this

theorem calm_tryFromCharsLoop (hE : Tame A E) (hN : N ≤ 255) (ws : Script Char) :
    ∀ {out : ArrayString N} {cs : List Char}, Holds out cs →
    Calm A (onLocal (tryFromCharsLoop E ws) out)
      (dropRest (ArrayString.tryFromCharsLoop scriptIter ws out)) := by
  induction ws with
  | nil =>
    intro out cs _
    rw [ArrayString.tryFromCharsLoop]
    exact calm_onLocal_pure ()
  | cons w ws ih =>
    intro out cs h
    rw [ArrayString.tryFromCharsLoop]
    cases w with
    | none => exact calm_onLocal_lift_panic
    | some c =>
      by_cases hf : byteLen cs + c.utf8Size ≤ N
      · obtain ⟨out', e, h'⟩ := tryPush_ok hN h hf
        refine calm_onLocal_ok (sim_tryPush hE hN h c) e ?_
        simp only [scriptIter, e]
        exact ih h'
      · have e := tryPush_err hN h (c := c) (by omega)
        simp only [scriptIter, e]
        exact calm_onLocal_err (sim_tryPush hE hN h c) e

theorem calm_tryFromChars (hE : Tame A E) (hN : N ≤ 255) (ws : Script Char) :
    Calm A (tryFromChars E ws : M W _ (ArrayString N))
      (do let p ← ArrayString.tryFromChars scriptIter ws; pure p.1) := by
  refine (calm_note hE _ _).then ?_
  have := (calm_tryFromCharsLoop hE hN ws holds_new).bind
    (f := fun p => (pure p.2 : M W _ (ArrayString N))) (g := fun p => pure p.2) fun _ _ => calm_pure _
  have e : ∀ r : Res OutOfBounds (ArrayString N × Script Char),
      (dropRest r >>= fun p => (pure p.2 : Res OutOfBounds (ArrayString N))) = (do let p ← r; pure p.1) := by
    intro r; cases r <;> rfl
  rw [e] at this
  exact this

theorem calm_fromCharsTruncateLoop (hE : Tame A E) (hN : N ≤ 255) (ws : Script Char) :
    ∀ {out : ArrayString N} {cs : List Char}, Holds out cs →
    Calm A (onLocal (fromCharsTruncateLoop E ws : M _ ε Unit) out)
      (dropRest (ArrayString.fromCharsTruncateLoop scriptIter ws out)) := by
  induction ws with
  | nil =>
    intro out cs _
    rw [ArrayString.fromCharsTruncateLoop]
    exact calm_onLocal_pure ()
  | cons w ws ih =>
    intro out cs h
    rw [ArrayString.fromCharsTruncateLoop]
    cases w with
    | none => exact calm_onLocal_lift_panic
    | some c =>
      have hsim := sim_attempt (ε' := ε) (sim_tryPush hE hN h c)
      by_cases hf : byteLen cs + c.utf8Size ≤ N
      · obtain ⟨out', e, h'⟩ := tryPush_ok hN h hf
        refine calm_onLocal_ok hsim (by rw [M.attempt_apply, e]; rfl) ?_
        simp only [scriptIter, e]
        exact ih h'
      · have e := tryPush_err hN h (c := c) (by omega)
        refine calm_onLocal_ok hsim (by rw [M.attempt_apply, e]; rfl) ?_
        simp only [scriptIter, e]
        exact calm_onLocal_pure ()

theorem calm_fromCharsTruncate (hE : Tame A E) (hN : N ≤ 255) (ws : Script Char) :
    Calm A (fromCharsTruncate E ws : M W ε (ArrayString N))
      (do let p ← ArrayString.fromCharsTruncate scriptIter ws; pure p.1) := by
  refine (calm_note hE _ _).then ?_
  have := (calm_fromCharsTruncateLoop (ε := ε) hE hN ws holds_new).bind
    (f := fun p => (pure p.2 : M W _ (ArrayString N))) (g := fun p => pure p.2) fun _ _ => calm_pure _
  have e : ∀ r : Res ε (ArrayString N × Script Char),
      (dropRest r >>= fun p => (pure p.2 : Res ε (ArrayString N))) = (do let p ← r; pure p.1) := by
    intro r; cases r <;> rfl
  rw [e] at this
  exact this

theorem decode_shrinks {k k' : Option UInt16 × List UInt16} {c : Option Char}
    (h : Str.decodeUtf16Next k = .item c k') : (pending k').length < (pending k).length := by
  obtain ⟨segs, hs1, hs2⟩ := exists_segments (pending k)
  cases segs with
  | nil =>
    obtain ⟨k2, e⟩ := decode_done (k := k) (by rw [← hs1]; rfl)
    rw [e] at h; cases h
  | cons sg segs =>
    obtain ⟨k2, e, p⟩ := decode_step hs2 hs1.symm
    rw [e] at h
    cases h
    rw [p, ← hs1]
    have := units_ne_nil sg
    have : 0 < sg.units.length := List.length_pos_iff.2 this
    simp [segUnits]
    omega

theorem sim_tryOutOfBounds (hE : Tame A E) {x : M (ArrayString N × W) OutOfBounds α}
    {m : M (ArrayString N) OutOfBounds α} (h : Sim A (fun _ => True) s s x m) :
    Sim A (fun _ => True) s s (tryOutOfBounds (view fun _ => noteOutOfBounds E) x) (M.mapErr ErrFrom.from_ m) := by
  have e : (M.mapErr ErrFrom.from_ m : M (ArrayString N) Error α) = (do
      let r ← M.attempt m
      match r with
      | .ok a => pure a
      | .error _ => M.lift (.err .outOfBounds)) := by
    funext u
    rw [bind_fst_snd, M.mapErr_apply, M.attempt_apply]
    rcases m u with ⟨r, v⟩
    cases r <;> rfl
  rw [e]
  refine Sim.bind (sim_attempt h) ?_
  intro a u _
  cases a with
  | ok a => exact sim_pure a
  | error e => exact Sim.skip (calm_note hE _ _) trivial (sim_lift _)

/-- A string alone. -/
def alone (r : Res ε (ArrayString N)) : Res ε (Unit × ArrayString N) := do
  let p ← r
  pure ((), p)

theorem calm_tryFromUtf16Loop (hE : Tame A E) (hN : N ≤ 255) (fuel : Nat) :
    ∀ {k : Option UInt16 × List UInt16} {out : ArrayString N} {cs : List Char}, Holds out cs →
    (pending k).length < fuel →
    Calm A (onLocal (tryFromUtf16Loop E fuel k) out) (alone (ArrayString.tryFromUtf16Loop k out)) := by
  induction fuel with
  | zero => intro k out cs _ h; omega
  | succ fuel ih =>
    intro k out cs h hk
    rw [ArrayString.tryFromUtf16Loop]
    unfold tryFromUtf16Loop
    cases hd : Str.decodeUtf16Next k with
    | done k' => exact calm_onLocal_pure ()
    | panic => exact calm_onLocal_lift_panic
    | item c k' =>
      have := decode_shrinks hd
      cases c with
      | none => exact calm_onLocal_lift_err _
      | some c =>
        have hsim := sim_tryOutOfBounds hE ((sim_tryPush hE hN h c).mono fun _ _ => trivial)
        by_cases hf : byteLen cs + c.utf8Size ≤ N
        · obtain ⟨out', e, h'⟩ := tryPush_ok hN h hf
          refine calm_onLocal_ok hsim (by rw [M.mapErr_apply, e]; rfl) ?_
          simp only [e]
          exact ih h' (by omega)
        · have e := tryPush_err hN h (c := c) (by omega)
          simp only [e]
          exact calm_onLocal_err hsim (by rw [M.mapErr_apply, e]; rfl)

theorem calm_fromUtf16TruncateLoop (hE : Tame A E) (hN : N ≤ 255) (fuel : Nat) :
    ∀ {k : Option UInt16 × List UInt16} {out : ArrayString N} {cs : List Char}, Holds out cs →
    (pending k).length < fuel →
    Calm A (onLocal (fromUtf16TruncateLoop E fuel k) out) (alone (ArrayString.fromUtf16TruncateLoop k out)) := by
  induction fuel with
  | zero => intro k out cs _ h; omega
  | succ fuel ih =>
    intro k out cs h hk
    rw [ArrayString.fromUtf16TruncateLoop]
    unfold fromUtf16TruncateLoop
    cases hd : Str.decodeUtf16Next k with
    | done k' => exact calm_onLocal_pure ()
    | panic => exact calm_onLocal_lift_panic
    | item c k' =>
      have := decode_shrinks hd
      cases c with
      | none => exact calm_onLocal_lift_err _
      | some c =>
        have hsim := sim_attempt (ε' := Utf16) (sim_tryPush hE hN h c)
        by_cases hf : byteLen cs + c.utf8Size ≤ N
        · obtain ⟨out', e, h'⟩ := tryPush_ok hN h hf
          refine calm_onLocal_ok hsim (by rw [M.attempt_apply, e]; rfl) ?_
          simp only [e]
          exact ih h' (by omega)
        · have e := tryPush_err hN h (c := c) (by omega)
          refine calm_onLocal_ok hsim (by rw [M.attempt_apply, e]; rfl) ?_
          simp only [e]
          exact calm_onLocal_pure ()

theorem calm_fromUtf16LossyTruncateLoop (hE : Tame A E) (hN : N ≤ 255) (fuel : Nat) :
    ∀ {k : Option UInt16 × List UInt16} {out : ArrayString N} {cs : List Char}, Holds out cs →
    (pending k).length < fuel →
    Calm A (onLocal (fromUtf16LossyTruncateLoop E fuel k : M _ ε Unit) out)
      (alone (ArrayString.fromUtf16LossyTruncateLoop k out)) := by
  induction fuel with
  | zero => intro k out cs _ h; omega
  | succ fuel ih =>
    intro k out cs h hk
    rw [ArrayString.fromUtf16LossyTruncateLoop]
    unfold fromUtf16LossyTruncateLoop
    cases hd : Str.decodeUtf16Next k with
    | done k' => exact calm_onLocal_pure ()
    | panic => exact calm_onLocal_lift_panic
    | item c k' =>
      have := decode_shrinks hd
      generalize hc : c.getD Str.replacementCharacter = c'
      have hsim := sim_attempt (ε' := ε) (sim_tryPush hE hN h c')
      by_cases hf : byteLen cs + c'.utf8Size ≤ N
      · obtain ⟨out', e, h'⟩ := tryPush_ok hN h hf
        rw [← hc] at hsim
        refine calm_onLocal_ok hsim (by rw [M.attempt_apply, hc, e]; rfl) ?_
        simp only [hc, e]
        exact ih h' (by omega)
      · have e := tryPush_err hN h (c := c') (by omega)
        rw [← hc] at hsim
        refine calm_onLocal_ok hsim (by rw [M.attempt_apply, hc, e]; rfl) ?_
        simp only [hc, e]
        exact calm_onLocal_pure ()

theorem alone_snd (r : Res ε (ArrayString N)) : (alone r >>= fun p => (pure p.2 : Res ε (ArrayString N))) = r := by
  cases r <;> rfl

theorem calm_tryFromUtf16 (hE : Tame A E) (hN : N ≤ 255) (l : List UInt16) :
    Calm A (tryFromUtf16 E l : M W _ (ArrayString N)) (ArrayString.tryFromUtf16 l) := by
  refine (calm_note hE _ _).then ?_
  have := (calm_tryFromUtf16Loop (k := (none, l)) hE hN (l.length + 1) holds_new (by simp [pending])).bind
    (f := fun p => (pure p.2 : M W _ (ArrayString N))) (g := fun p => pure p.2) fun _ _ => calm_pure _
  rw [alone_snd] at this
  exact this

theorem calm_fromUtf16Truncate (hE : Tame A E) (hN : N ≤ 255) (l : List UInt16) :
    Calm A (fromUtf16Truncate E l : M W _ (ArrayString N)) (ArrayString.fromUtf16Truncate l) := by
  refine (calm_note hE _ _).then ?_
  have := (calm_fromUtf16TruncateLoop (k := (none, l)) hE hN (l.length + 1) holds_new (by simp [pending])).bind
    (f := fun p => (pure p.2 : M W _ (ArrayString N))) (g := fun p => pure p.2) fun _ _ => calm_pure _
  rw [alone_snd] at this
  exact this

theorem calm_fromUtf16LossyTruncate (hE : Tame A E) (hN : N ≤ 255) (l : List UInt16) :
    Calm A (fromUtf16LossyTruncate E l : M W ε (ArrayString N)) (ArrayString.fromUtf16LossyTruncate l) := by
  refine (calm_note hE _ _).then ?_
  have := (calm_fromUtf16LossyTruncateLoop (ε := ε) (k := (none, l)) hE hN (l.length + 1) holds_new
    (by simp [pending])).bind
    (f := fun p => (pure p.2 : M W _ (ArrayString N))) (g := fun p => pure p.2) fun _ _ => calm_pure _
  rw [alone_snd] at this
  exact this

/-! ## Methods built on constructors -/

theorem filterScript_loop {φ : Type} (f : ArrayString.Pred φ) (cs : List Char) :
    ∀ (q : φ) (out : ArrayString N),
    dropRest (ArrayString.fromCharsTruncateLoop scriptIter (filterScript f q cs) out : Res ε _) =
      dropRest (ArrayString.fromCharsTruncateLoop (ArrayString.filterIter f) (cs, q) out) := by
  induction cs with
  | nil =>
    intro q out
    rw [ArrayString.fromCharsTruncateLoop, ArrayString.fromCharsTruncateLoop]
    rfl
  | cons c cs ih =>
    intro q out
    rcases hc : f q c with _ | ⟨_ | _, q'⟩
    · rw [ArrayString.fromCharsTruncateLoop, ArrayString.fromCharsTruncateLoop]
      simp [filterScript, ArrayString.filterIter, ArrayString.filterNext, hc, scriptIter]
      rfl
    · have e : filterScript f q (c :: cs) = filterScript f q' cs := by rw [filterScript, hc]
      have e2 : (ArrayString.fromCharsTruncateLoop (ArrayString.filterIter f) (c :: cs, q) out : Res ε _) =
          ArrayString.fromCharsTruncateLoop (ArrayString.filterIter f) (cs, q') out := by
        rw [ArrayString.fromCharsTruncateLoop]
        conv => rhs; rw [ArrayString.fromCharsTruncateLoop]
        have : ArrayString.filterIter f (c :: cs, q) = ArrayString.filterIter f (cs, q') := by
          simp [ArrayString.filterIter, ArrayString.filterNext, hc]
        rw [this]
      rw [e, e2, ih]
    · have e : filterScript f q (c :: cs) = some c :: filterScript f q' cs := by rw [filterScript, hc]
      rw [e, ArrayString.fromCharsTruncateLoop]
      conv => rhs; rw [ArrayString.fromCharsTruncateLoop]
      have : ArrayString.filterIter f (c :: cs, q) = .item c (cs, q') := by
        simp [ArrayString.filterIter, ArrayString.filterNext, hc]
      rw [this]
      simp only [scriptIter]
      rcases ArrayString.tryPush c out with ⟨r, out'⟩
      cases r with
      | ok u => exact ih q' out'
      | err e => rfl
      | panic => rfl
      | ub => rfl
      | diverge => rfl

theorem sim_retain {φ : Type} (hE : Tame A E) (hN : N ≤ 255) (hs : Holds s cs) (f : ArrayString.Pred φ) (q : φ) :
    Sim A (· = s) s s (retain E f q : M _ ε Unit) (do let _ ← ArrayString.retain f q; pure ()) := by
  have e : (do let _ ← ArrayString.retain f q; pure () : M (ArrayString N) ε Unit) = (do
      let s ← M.self
      let b ← M.lift s.asStr
      let out ← M.lift (do let p ← ArrayString.fromCharsTruncate scriptIter (filterScript f q (Str.chars b)); pure p.1)
      M.setSelf out) := by
    funext u
    unfold ArrayString.retain
    simp only [M.bind_apply, M.self_apply, M.lift_apply]
    cases hb : (u.asStr : Res ε Bytes) with
    | ok b =>
      simp only []
      have := filterScript_loop (ε := ε) f (Str.chars b) q (ArrayString.new : ArrayString N)
      unfold ArrayString.fromCharsTruncate
      generalize (ArrayString.fromCharsTruncateLoop scriptIter (filterScript f q (Str.chars b)) ArrayString.new :
        Res ε (ArrayString N × Script Char)) = r1 at this ⊢
      generalize (ArrayString.fromCharsTruncateLoop (ArrayString.filterIter f) (Str.chars b, q) ArrayString.new :
        Res ε (ArrayString N × (List Char × φ))) = r2 at this ⊢
      cases r1 <;> cases r2 <;> simp_all [dropRest, bind, Res.bind, pure]
      rfl
    | err e => rfl
    | panic => rfl
    | ub => rfl
    | diverge => rfl
  rw [e]
  unfold retain
  refine Sim.self ?_
  refine Sim.skip (calm_note hE _ _) rfl ?_
  rw [hs.asStr]
  refine Sim.check (calm_asStr hE hs) rfl fun b _ => ?_
  refine Sim.check (calm_fromCharsTruncate hE hN _) rfl fun out _ => ?_
  exact fun _ => .inl ⟨rfl, rfl⟩

theorem simF_drain (hE : Tame A E) (hN : N ≤ 255) (hs : Holds s cs) (r : RangeB) :
    SimF A (Cut s) s (drain E r) (ArrayString.drain r) := by
  unfold drain ArrayString.drain
  refine SimF.self ?_
  refine SimF.skip (calm_rangeEnd hE r s) cut_refl ?_
  refine SimF.skip (calm_record hE ((calm_len hE s).then (calm_pure _)) (calm_pure _)) cut_refl ?_
  simp only [try_eq]
  generalize ArrayString.rangeStart r = start
  generalize ArrayString.rangeEnd r s.len = stop
  refine SimF.check (calm_checkInside hE _ _) cut_refl fun _ h1 => ?_
  refine SimF.check ((calm_len hE s).then (calm_checkInside hE _ _)) cut_refl fun _ h2 => ?_
  refine SimF.check (calm_tryUtf8 hE (calm_isCharBoundary hE hs _)) cut_refl fun _ h3 => ?_
  refine SimF.check (calm_tryUtf8 hE (calm_isCharBoundary hE hs _)) cut_refl fun _ h4 => ?_
  have h1 := inside_of_ok h1
  have h2 := inside_of_ok h2
  have h3 := boundary_of_ok hs h3
  have h4 := boundary_of_ok hs h4
  have b3 := (isCharBoundary_utf8 _ _).2 h3
  have b4 := (isCharBoundary_utf8 _ _).2 h4
  rw [debugAssert_true (show (decide (start ≤ stop) && decide (stop ≤ s.len)) = true by simp; omega), lift_ok,
    hs.asStr, lift_ok, debugAssert_true b3, lift_ok, debugAssert_true b4, lift_ok]
  have a1 : Calm A (debugAssertM E (if start ≤ stop then do
      let n ← len E s
      pure (stop ≤ n)
    else pure false) : M W Error Unit) (.ok ()) := by
    refine calm_debugAssertM ?_
    rw [if_pos h1]
    refine (calm_len hE s).then ?_
    rw [decide_eq_true h2]
    exact calm_pure _
  refine SimF.skip a1 cut_refl ?_
  refine SimF.skip (calm_debugAssertM ((calm_asStr hE hs).then (by rw [b3]; exact calm_pure _))) cut_refl ?_
  refine SimF.skip (calm_debugAssertM ((calm_asStr hE hs).then (by rw [b4]; exact calm_pure _))) cut_refl ?_
  refine SimF.check ((calm_asStr hE hs).then (calm_lift _)) cut_refl fun slice hsl => ?_
  obtain ⟨p, m, q, rfl, hp, hm⟩ := cut_three h3 h4 h1
  have hslice : slice = utf8 m := by
    unfold Str.getUnchecked at hsl
    split at hsl
    · cases hsl
      rw [← hm, ← hp, List.append_assoc, utf8_append, List.drop_left' (by simp), utf8_append,
        List.take_left' (by simp)]
    · cases hsl
  subst hslice
  refine SimF.check (calm_tryOutOfBounds hE (calm_tryFromStr hE hN m)) cut_refl fun d _ => ?_
  exact (simF_replaceRange hE hN hs _ []).map (f := fun _ => (⟨d⟩ : ArrayString.Drain N))

theorem simF_splitOff (hE : Tame A E) (hN : N ≤ 255) (hs : Holds s cs) (i : Nat) :
    SimF A (Cut s) s (splitOff E i) (ArrayString.splitOff i) := by
  unfold splitOff ArrayString.splitOff
  refine SimF.skip (calm_note hE _ _) cut_refl ?_
  exact (simF_drain hE hN hs _).map

/-- A method with a tail that does not touch the string. -/
theorem SimF.tail {x : M (ArrayString N × W) ε α} {m : M (ArrayString N) ε α}
    {f : α → M (ArrayString N × W) ε β} {g : α → M (ArrayString N) ε β} (h : SimF A F s x m)
    (hg : ∀ a u, (g a u).2 = u) (hf : ∀ a u, m s = (.ok a, u) → Sim A (· = u) u u (f a) (g a)) :
    SimF A (fun f u => F f u ∨ u = f) s (x >>= f) (m >>= g) := by
  have e : ((m >>= g) s).2 = (m s).2 := by
    rw [bind_fst_snd]
    cases (m s).1 <;> first | rfl | exact hg _ _
  unfold SimF at h ⊢
  rw [e]
  refine Sim.bind (h.mono fun _ => .inl) ?_
  intro a u hu
  rw [hu]
  exact (hf a u hu).mono fun _ => .inr

/-! ## implementations.rs and drain.rs -/

theorem pure_bind {σ : Type} (a : α) (f : α → M σ ε β) : ((pure a : M σ ε α) >>= f) = f a := rfl

theorem debugAssertM_true {σ : Type} : (debugAssertM E (pure true) : M σ ε Unit) = pure () := by
  unfold debugAssertM
  cases E.debugAssertions <;> rfl

theorem sim_asMutStr (hE : Tame A E) (hs : Holds s cs) (edit : Bytes → Bytes) :
    Sim A (· = s) s s (asMutStr E edit : M _ ε Unit) (ArrayString.asMutStr edit) := by
  have hn : s.len ≤ N := hs.2.1
  have hg : (getUncheckedTo s.array s.len : Res ε Bytes) = .ok (utf8 cs) := by
    unfold getUncheckedTo
    rw [if_pos (by rw [hs.1]; exact hn)]
    exact congrArg _ hs.2.2
  unfold asMutStr ArrayString.asMutStr
  refine Sim.self ?_
  refine Sim.skip (calm_record hE (calm_pure _) ((calm_asStr hE hs).then (calm_pure _))) rfl ?_
  refine Sim.skip (calm_len hE s) rfl ?_
  rw [decide_eq_true hn, debugAssertM_true, debugAssert_true rfl, lift_ok, hg, lift_ok]
  refine Sim.read (f := fun s' => getUncheckedTo s'.array s.len) hg ?_
  rw [show Str.validUtf8 (utf8 cs) = true by simp, debugAssertM_true, pure_bind, debugAssert_true rfl,
    lift_ok]
  refine Sim.step fun b _ => ?_
  refine Sim.step fun _ _ => ?_
  exact fun _ => .inl ⟨rfl, rfl⟩

theorem sim_indexMut (hE : Tame A E) (hs : Holds s cs) (i : IdxU8) (edit : Bytes → Bytes) :
    Sim A (· = s) s s (indexMut E i edit : M _ ε Unit) (ArrayString.indexMut i edit) := by
  have hn : s.len ≤ N := hs.2.1
  have hg : (getUncheckedTo s.array s.len : Res ε Bytes) = .ok (utf8 cs) := by
    unfold getUncheckedTo
    rw [if_pos (by rw [hs.1]; exact hn)]
    exact congrArg _ hs.2.2
  unfold indexMut ArrayString.indexMut
  refine Sim.self ?_
  refine Sim.skip (calm_record hE (calm_pure _) ((calm_asStr hE hs).then (calm_pure _))) rfl ?_
  refine Sim.skip (calm_len hE s) rfl ?_
  rw [decide_eq_true hn, debugAssertM_true, debugAssert_true rfl, lift_ok, hg, lift_ok]
  refine Sim.read (f := fun s' => getUncheckedTo s'.array s.len) hg ?_
  rw [show Str.validUtf8 (utf8 cs) = true by simp, debugAssertM_true, pure_bind, debugAssert_true rfl,
    lift_ok]
  refine Sim.step fun b _ => ?_
  cases i.toUsize.resolve b.length with
  | none => exact sim_lift _
  | some xy =>
    refine Sim.step fun _ _ => ?_
    refine Sim.step fun _ _ => ?_
    exact fun _ => .inl ⟨rfl, rfl⟩

theorem calm_index (hE : Tame A E) (hs : Holds s cs) (i : IdxU8) :
    Calm A (index E s i : M W ε Bytes) (s.index i) := by
  unfold index ArrayString.index
  rw [hs.asStr]
  exact (calm_asStr hE hs).then (calm_lift _)

theorem calm_eqStr (hE : Tame A E) (hs : Holds s cs) (b : Bytes) :
    Calm A (eqStr E s b : M W ε Bool) (s.eqStr b) := by
  unfold eqStr ArrayString.eqStr
  rw [hs.asStr]
  exact (calm_asStr hE hs).then (calm_pure _)

theorem calm_isEmpty (hE : Tame A E) (hs : Holds s cs) : Calm A (isEmpty E s : M W ε Bool) s.isEmpty := by
  unfold isEmpty ArrayString.isEmpty
  rw [hs.asRefStr]
  exact (calm_asRefStr hE hs).then (calm_pure _)

theorem calm_hash {η : Type} (hE : Tame A E) (hs : Holds s cs) (H : Hasher η) (h : η) :
    Calm A (hash E H s h : M W ε η) (s.hash H h) := by
  unfold hash ArrayString.hash
  rw [hs.asStr]
  exact (calm_asStr hE hs).then (calm_pure _)

theorem calm_display (hE : Tame A E) (hs : Holds s cs) :
    Calm A (display E s) (do
      let ((), out) ← (s.display collect {}).onLocal []
      pure out) := by
  unfold display ArrayString.display
  rw [hs.asStr, lift_ok]
  exact (calm_asStr hE hs).then (calm_lift _)

theorem sim_writeStr (hE : Tame A E) (hN : N ≤ 255) (hs : Holds s cs) (w : List Char) :
    Sim A (Holds · cs) s s (writeStr E (utf8 w)) (ArrayString.writeStr (utf8 w)) :=
  sim_mapErr (sim_tryPushStr hE hN hs w)

theorem sim_writeFmt (hE : Tame A E) (hN : N ≤ 255) (ws : List (List Char)) :
    ∀ {s : ArrayString N} {cs : List Char}, Holds s cs →
    Sim A (fun u => ∃ k, Holds u (cs ++ (ws.take k).flatten)) s s
      (writeFmt E (ws.map fun w => .lit (utf8 w))) (ArrayString.writeFmt (ws.map fun w => .lit (utf8 w))) := by
  induction ws with
  | nil => intro s cs _; exact sim_pure ()
  | cons w ws ih =>
    intro s cs hs
    have hP : ∀ {u : ArrayString N}, Holds u cs → ∃ k, Holds u (cs ++ ((w :: ws).take k).flatten) :=
      fun h => ⟨0, by simpa using h⟩
    unfold writeFmt ArrayString.writeFmt at ih ⊢
    rw [List.map_cons, List.map_cons, Fmt.write, Fmt.write]
    have next : ∀ {u : ArrayString N}, Holds u (cs ++ w) → Sim A
        (fun u => ∃ k, Holds u (cs ++ ((w :: ws).take k).flatten)) u u
        (Fmt.write ⟨writeStr E⟩ (ws.map fun w => .lit (utf8 w)))
        (Fmt.write ArrayString.sink (ws.map fun w => .lit (utf8 w))) := by
      intro u hu
      refine (ih hu).mono ?_
      rintro v ⟨k, hk⟩
      exact ⟨k + 1, by simpa using hk⟩
    by_cases hw : List.isEmpty (utf8 w)
    · rw [if_pos hw, if_pos hw]
      have : w = [] := by simpa [utf8_eq_nil] using hw
      subst this
      exact next (by simpa using hs)
    · rw [if_neg hw, if_neg hw]
      refine Sim.bind ((sim_writeStr hE hN hs w).mono fun _ => hP) ?_
      intro a u hu
      replace hu : ArrayString.writeStr (utf8 w) s = (.ok a, u) := hu
      by_cases hf : byteLen cs + byteLen w ≤ N
      · obtain ⟨s', e, h'⟩ := writeStr_ok hN hs hf
        rw [e] at hu
        cases hu
        exact next h'
      · rw [writeStr_err hN hs (w := w) (by omega)] at hu
        cases hu

theorem sim_stop {x : M W ε α} {r : Res ε α} {f : α → M (ArrayString N × W) ε β} {g : α → M (ArrayString N) ε β}
    (hP : P s) (hx : Calm A x r) (hr : ∀ a, r ≠ .ok a) :
    Sim A P s s (view (fun _ => x) >>= f) (M.lift r >>= g) :=
  Sim.check hx hP fun a h => absurd h (hr a)

theorem sim_extend (hE : Tame A E) (hN : N ≤ 255) (hs : Holds s cs) {κ : Type} {x : M W ε (ArrayString N)}
    {r : Res ε (ArrayString N × κ)} (hx : Calm A x (do let p ← r; pure p.1))
    (hr : ∀ t k, r = .ok (t, k) → ∃ w, Holds t w) :
    Sim A (Holds · cs) s s (do let t ← view fun _ => x; pushStrTruncate E (asRefStr E t))
      (do
        let p ← M.lift r
        let b ← M.lift p.1.asRefStr
        ArrayString.pushStrTruncate b
        pure p.2 >>= fun _ => pure ()) := by
  cases r with
  | ok p =>
    obtain ⟨t, k⟩ := p
    obtain ⟨w, hw⟩ := hr t k rfl
    refine Sim.skip hx hs ?_
    rw [lift_ok, hw.asRefStr, lift_ok]
    have := Sim.bind (sim_pushStrTruncate (ε := ε) hE hN hs (calm_asRefStr hE hw)) (f := fun _ => pure ())
      (g := fun _ => (pure k >>= fun _ => pure ())) (fun _ _ _ => sim_pure ())
    refine fun wd => ?_
    have e : ∀ y : M (ArrayString N × W) ε Unit, (y >>= fun _ => pure ()) = y := by
      intro y; funext p
      rw [M.bind_apply]
      rcases y p with ⟨r, p'⟩
      cases r <;> rfl
    rw [e] at this
    exact this wd
  | err e => exact sim_stop (g := fun _ => pure ()) hs hx fun _ h => by cases h
  | panic => exact sim_stop (g := fun _ => pure ()) hs hx fun _ h => by cases h
  | ub => exact sim_stop (g := fun _ => pure ()) hs hx fun _ h => by cases h
  | diverge => exact sim_stop (g := fun _ => pure ()) hs hx fun _ h => by cases h

theorem calm_onLocal_map {x : M (ArrayString N × W) ε α} {r : Res ε (α × ArrayString N)} {f : α → β}
    (h : Calm A (onLocal x s) r) :
    Calm A (onLocal (x >>= fun a => (pure (f a) : M _ ε β)) s) (do let p ← r; pure (f p.1, p.2)) := by
  intro w
  have := h w
  rw [onLocal_fst] at this ⊢
  rw [bind_fst_snd]
  rcases this with h | ⟨c, hc, h⟩
  · left
    subst h
    cases (x (s, w)).1 <;> rfl
  · right
    refine ⟨c, hc, ?_⟩
    cases hx : (x (s, w)).1 <;> rw [hx] at h <;> cases c <;> first | rfl | cases h

/-- The inner string of a `Drain`. -/
def innerOf (r : Res ε (α × ArrayString.Drain N)) : Res ε (α × ArrayString N) := do
  let p ← r
  pure (p.1, p.2.inner)

theorem drain_next_nil {t : ArrayString N} (hN : N ≤ 255) (h : Holds t []) :
    (ArrayString.Drain.next : M (ArrayString.Drain N) ε _) ⟨t⟩ = (.ok none, ⟨t⟩) := by
  unfold ArrayString.Drain.next
  simp [M.bind_apply, ArrayString.Drain.onInner, remove_oob hN h (i := 0) (by simp)]

theorem drain_next_cons {t t' : ArrayString N} {c : Char} (h : ArrayString.remove 0 t = (.ok c, t')) :
    (ArrayString.Drain.next : M (ArrayString.Drain N) ε _) ⟨t⟩ = (.ok (some c), ⟨t'⟩) := by
  unfold ArrayString.Drain.next
  simp [M.bind_apply, ArrayString.Drain.onInner, h]

theorem innerOf_cons {o : Option Char} {d : ArrayString.Drain N} {x : M (ArrayString.Drain N) ε (Option Char)}
    {t : ArrayString.Drain N} (es : List End) (hx : x t = (.ok o, d)) :
    innerOf (M.onLocal (do let o ← x; let os ← Verif.drainEnds es; pure (o :: os)) t) =
      (do let p ← innerOf (M.onLocal (Verif.drainEnds es) d); pure (o :: p.1, p.2) : Res ε _) := by
  unfold M.onLocal
  rw [bind_fst_snd, hx]
  dsimp only []
  rw [bind_fst_snd]
  rcases (Verif.drainEnds es : M (ArrayString.Drain N) ε _) d with ⟨r, d'⟩
  cases r <;> rfl

theorem calm_drainEnds (hE : Tame A E) (hN : N ≤ 255) (es : List End) :
    ∀ {t : ArrayString N} {cs : List Char}, Holds t cs →
    Calm A (onLocal (drainEnds E es : M _ ε _) t) (innerOf ((Verif.drainEnds es).onLocal ⟨t⟩)) := by
  induction es with
  | nil => intro t cs _; exact calm_onLocal_pure []
  | cons e es ih =>
    intro t cs h
    cases e with
    | front =>
      cases cs with
      | nil =>
        have e := remove_oob hN h (i := 0) (by simp)
        have e2 := drain_next_nil (ε := ε) hN h
        unfold drainEnds Verif.drainEnds
        refine calm_onLocal_ok (sim_attempt (simF_remove hE hN h 0)) (by rw [M.attempt_apply, e]; rfl) ?_
        rw [innerOf_cons es e2]
        exact calm_onLocal_map (ih h)
      | cons c cs =>
        obtain ⟨t', e, h'⟩ := remove_ok hN (p := []) h
        rw [byteLen_nil] at e
        have e2 := drain_next_cons (ε := ε) e
        unfold drainEnds Verif.drainEnds
        refine calm_onLocal_ok (sim_attempt (simF_remove hE hN h 0)) (by rw [M.attempt_apply, e]; rfl) ?_
        rw [innerOf_cons es e2]
        exact calm_onLocal_map (ih h')
    | back =>
      by_cases hcs : cs = []
      · subst hcs
        have e := pop_nil (ε := ε) h
        have e2 : (ArrayString.Drain.nextBack : M (ArrayString.Drain N) ε _) ⟨t⟩ = (.ok none, ⟨t⟩) := by
          unfold ArrayString.Drain.nextBack ArrayString.Drain.onInner; rw [e]
        unfold drainEnds Verif.drainEnds
        refine calm_onLocal_ok (sim_pop hE h) e ?_
        rw [innerOf_cons es e2]
        exact calm_onLocal_map (ih h)
      · obtain ⟨init, c, rfl⟩ := exists_snoc hcs
        obtain ⟨t', e, h'⟩ := pop_append (ε := ε) h
        have e2 : (ArrayString.Drain.nextBack : M (ArrayString.Drain N) ε _) ⟨t⟩ = (.ok (some c), ⟨t'⟩) := by
          unfold ArrayString.Drain.nextBack ArrayString.Drain.onInner; rw [e]
        unfold drainEnds Verif.drainEnds
        refine calm_onLocal_ok (sim_pop hE h) e ?_
        rw [innerOf_cons es e2]
        exact calm_onLocal_map (ih h')

/-! ## Histories -/

theorem sim_call [Kind ε] {x : M (ArrayString N × W) ε α} {m : M (ArrayString N) ε α} {out : α → Out}
    (h : Sim A P s s x m) : Sim A P s s (call x out) (Verif.call m out) :=
  Sim.bind (sim_mapErr h) fun _ _ _ => sim_pure _

theorem call_snd [Kind ε] (m : M (ArrayString N) ε α) (out : α → Out) : (Verif.call m out s).2 = (m s).2 := by
  unfold Verif.call
  rw [bind_pure_snd, M.mapErr_apply]

theorem simF_call [Kind ε] {x : M (ArrayString N × W) ε α} {m : M (ArrayString N) ε α} {out : α → Out}
    (h : SimF A F s x m) : SimF A F s (call x out) (Verif.call m out) := by
  unfold SimF
  rw [call_snd]
  exact sim_call h

theorem sim_construct [Kind ε] {x : M W ε (ArrayString N)} {r : Res ε α} {get : α → ArrayString N}
    (h : Calm A x (do let a ← r; pure (get a))) :
    Sim A (· = s) s s (construct x) (Verif.construct r get) := by
  have h' := calm_mapErr (f := Kind.kind) h
  cases r with
  | ok a => exact Sim.skip h' rfl fun _ => .inl ⟨rfl, rfl⟩
  | err e => exact sim_stop (P := (· = s)) (g := fun _ => pure Out.unit) rfl h' fun _ h => by cases h
  | panic => exact sim_stop (P := (· = s)) (g := fun _ => pure Out.unit) rfl h' fun _ h => by cases h
  | ub => exact sim_stop (P := (· = s)) (g := fun _ => pure Out.unit) rfl h' fun _ h => by cases h
  | diverge => exact sim_stop (P := (· = s)) (g := fun _ => pure Out.unit) rfl h' fun _ h => by cases h

theorem sim_construct_id [Kind ε] {x : M W ε (ArrayString N)} {r : Res ε (ArrayString N)}
    (h : Calm A x r) : Sim A (· = s) s s (construct x) (Verif.construct r id) := by
  refine sim_construct ?_
  have : (do let a ← r; pure (id a)) = r := by cases r <;> rfl
  rwa [this]

theorem sim_query [Kind ε] {f : ArrayString N → M W ε α} {g : ArrayString N → Res ε α} {out : α → Out}
    (h : Calm A (f s) (g s)) : Sim A (· = s) s s (query f out) (Verif.query g out) :=
  Sim.self (Sim.check (calm_mapErr h) rfl fun _ _ => sim_pure _)

theorem left_of_cut {f u : ArrayString N} {new : List Char} (hf : Holds f new) (h : Cut s f u) :
    u = s ∨ u = overwrite s new := by
  rcases h with rfl | ⟨new', h', rfl⟩
  · exact .inl rfl
  · exact .inr (by rw [hf.unique h'])

theorem left_of_tail {f u : ArrayString N} {new : List Char} (hf : Holds f new) (h : Cut s f u ∨ u = f) :
    u = s ∨ u = overwrite s new ∨ Holds u new := by
  rcases h with h | rfl
  · exact (left_of_cut hf h).imp_right .inl
  · exact .inr (.inr hf)

theorem sim_callUnit [Kind ε] {x : M (ArrayString N × W) ε Unit} {m : M (ArrayString N) ε α}
    (h : Sim A P s s x (m >>= fun _ => pure ())) :
    Sim A P s s (call x fun _ => .unit) (Verif.call m fun _ => .unit) := by
  have e : Verif.call m (fun _ => .unit) = Verif.call (m >>= fun _ => pure ()) fun _ => .unit := by
    funext u
    unfold Verif.call
    rw [bind_fst_snd, bind_fst_snd, M.mapErr_apply, M.mapErr_apply, M.bind_apply]
    rcases m u with ⟨r, u'⟩
    cases r <;> rfl
  rw [e]
  exact sim_call h

theorem sim_view {x : M W ε α} {r : Res ε α} (h : Calm A x r) :
    Sim A (· = s) s s (view fun _ => x) (M.lift r) := by
  intro w
  rcases h w with e | ⟨c, hc, e⟩
  · exact .inl ⟨e, rfl⟩
  · exact .inr ⟨c, hc, e, rfl⟩

theorem bind_assoc {σ : Type} (x : M σ ε α) (f : α → M σ ε β) {γ : Type} (g : β → M σ ε γ) :
    ((x >>= f) >>= g) = (x >>= fun a => f a >>= g) := by
  funext u
  rw [M.bind_apply, M.bind_apply, M.bind_apply]
  rcases x u with ⟨r, u'⟩
  cases r <;> rfl

theorem holds_drained (hN : N ≤ 255) (hs : Holds s cs) {r : RangeB} {d : ArrayString.Drain N} {u : ArrayString N}
    (h : ArrayString.drain r s = (.ok d, u)) : ∃ ds, Holds d.inner ds := by
  by_cases h1 : ArrayString.rangeStart r ≤ ArrayString.rangeEnd r s.len ∧ ArrayString.rangeEnd r s.len ≤ s.len
  · by_cases h2 : IsBoundary cs (ArrayString.rangeStart r) ∧ IsBoundary cs (ArrayString.rangeEnd r s.len)
    · obtain ⟨p, m, q, rfl, hp, hm⟩ := cut_three h2.1 h2.2 h1.1
      obtain ⟨s', d', e, _, h'⟩ := drain_ok hN hs hp.symm (by omega)
      rw [e] at h
      cases h
      exact ⟨m, h'⟩
    · rw [drain_utf8 hs h1.1 h1.2 h2] at h
      cases h
  · rw [drain_oob h1] at h
    cases h

theorem holds_splitOff (hN : N ≤ 255) (hs : Holds s cs) {i : Nat} {t u : ArrayString N}
    (h : ArrayString.splitOff i s = (.ok t, u)) : ∃ ds, Holds t ds := by
  unfold ArrayString.splitOff at h
  rw [M.bind_apply] at h
  rcases hd : ArrayString.drain (.from_ i) s with ⟨r, u'⟩
  rw [hd] at h
  cases r <;> cases h
  exact holds_drained hN hs hd

theorem calm_strs (hE : Tame A E) (hN : N ≤ 255) (ws : Script (List Char)) :
    Calm A (fromIteratorTruncate E (ws.map (Option.map fun w => same (utf8 w))) : M W ε (ArrayString N))
      (do
        let p ← ArrayString.fromIteratorTruncate scriptIter (ws.map (Option.map fun w => ⟨utf8 w, utf8 w⟩))
        pure p.1) := by
  have h := calm_fromIteratorTruncate (ε := ε) (N := N) hE hN (twice ws)
  simp only [twice, List.map_map, Function.comp_def, Option.map_map] at h
  exact h

theorem left_of_splitOff (hs : Holds s cs) {i : Nat} {u : ArrayString N}
    (h : u = s ∨ u = overwrite s (step N (.splitOff i) cs).2 ∨ Holds u (step N (.splitOff i) cs).2) :
    u = s ∨ Holds u (step N (.splitOff i) cs).2 := by
  obtain ⟨post, hp⟩ : ∃ post, cs = (step N (.splitOff i) cs).2 ++ post := by
    simp only [step]
    split
    · exact ⟨[], (List.append_nil _).symm⟩
    · split
      next hc => exact ⟨_, (cutAt_some.1 hc).1⟩
      next => exact ⟨[], (List.append_nil _).symm⟩
  rcases h with h | h | h
  · exact .inl h
  · left
    rw [h, overwrite_prefix (b := post)]
    rwa [← hp]
  · exact .inr h

theorem sim_exec [ValidCapacity N] (hE : Tame A E) (op : Op) (hop : op.Ok) (hs : Holds s cs) :
    Sim A (Left op s cs) s s (exec E op) (Verif.exec op) := by
  have hN : N ≤ 255 := ValidCapacity.le
  have hstep : (∀ ws, op ≠ .writeFmt ws) → Holds (Verif.exec op s).2 (step N op cs).2 :=
    fun h => (exec_sim op hop h hs).2.1
  cases op with
  | new => exact sim_construct_id (calm_pure _)
  | default => exact sim_construct_id (calm_pure _)
  | tryFromStr w => exact sim_construct_id (calm_tryFromStr hE hN w)
  | parse w => exact sim_construct_id (calm_tryFromStr hE hN w)
  | fromStrTruncate w => exact sim_construct_id (calm_fromStrTruncate hE hN w)
  | from_ w => exact sim_construct_id (calm_fromStrTruncate hE hN w)
  | tryFromIterator ws => exact sim_construct (calm_tryFromIterator hE hN ws)
  | fromIteratorTruncate ws => exact sim_construct (calm_fromIteratorTruncate hE hN ws)
  | collectStrs ws =>
    exact sim_construct (calm_strs hE hN ws)
  | tryFromChars w => exact sim_construct (calm_tryFromChars hE hN w)
  | fromCharsTruncate w => exact sim_construct (calm_fromCharsTruncate hE hN w)
  | collectChars w => exact sim_construct (calm_fromCharsTruncate hE hN w)
  | tryFromUtf16 l => exact sim_construct_id (calm_tryFromUtf16 hE hN l)
  | fromUtf16Truncate l => exact sim_construct_id (calm_fromUtf16Truncate hE hN l)
  | fromUtf16LossyTruncate l => exact sim_construct_id (calm_fromUtf16LossyTruncate hE hN l)
  | tryPushStr w => exact sim_call (sim_tryPushStr hE hN hs w)
  | pushStrTruncate w => exact sim_call (sim_pushStrTruncate hE hN hs (calm_text _))
  | tryPush c => exact sim_call (sim_tryPush hE hN hs c)
  | truncate n => exact sim_call (sim_truncate hE hs n)
  | pop => exact sim_call (sim_pop hE hs)
  | trim => exact sim_call (sim_trim hE hN hs)
  | remove i =>
    exact (simF_call (simF_remove hE hN hs i)).mono fun u => left_of_cut (hstep nofun)
  | retain f =>
    exact sim_callUnit (sim_retain (ε := Error) hE hN hs (logged f) [])
  | tryInsert i c =>
    exact (simF_call (simF_tryInsert hE hN hs i c)).mono fun u => left_of_cut (hstep nofun)
  | tryInsertStr i w =>
    exact (simF_call (simF_tryInsertStr hE hN hs i w)).mono fun u => left_of_cut (hstep nofun)
  | insertStrTruncate i w =>
    exact (simF_call (simF_insertStrTruncate hE hN hs i w)).mono fun u => left_of_cut (hstep nofun)
  | clear => exact sim_call (sim_clear hE)
  | drain r es =>
    refine Sim.mono (P := fun u => Cut s (Verif.exec (.drain r es) s).2 u ∨ u = (Verif.exec (.drain r es) s).2)
      ?_ (fun u h => left_of_tail (hstep nofun) h)
    refine simF_call (SimF.tail (simF_drain hE hN hs r) ?_ ?_)
    · intro d u
      rw [bind_fst_snd]
      rcases ((Verif.drainEnds es : M (ArrayString.Drain N) Error _).onLocal d) with p | _ | _ | _ | _ <;> try rfl
      simp only [M.lift_apply]
      rw [bind_fst_snd]
      rcases (p.2.asStr : Res Error Bytes) with p | _ | _ | _ | _ <;> rfl
    · intro d u hu
      obtain ⟨ds, hd⟩ := holds_drained hN hs hu
      have h := calm_drainEnds (ε := Error) hE hN es hd
      obtain ⟨d', e, hd', e'⟩ := C25_drain_deque (ε := Error) es d ds hd
      have e2 : (Verif.drainEnds es : M (ArrayString.Drain N) Error _).onLocal d =
          .ok ((takeEnds es ds).1, d') := by unfold M.onLocal; rw [e]
      rw [e2] at h ⊢
      rw [lift_ok]
      refine Sim.skip h rfl ?_
      dsimp only []
      rw [e', lift_ok]
      refine Sim.skip (calm_asStr hE hd') rfl ?_
      exact sim_pure _
  | splitOff i =>
    refine Sim.mono (P := fun u => Cut s (Verif.exec (.splitOff i) s).2 u ∨ u = (Verif.exec (.splitOff i) s).2)
      ?_ (fun u h => left_of_splitOff hs (left_of_tail (hstep nofun) h))
    refine simF_call (SimF.tail (g := fun t => M.lift t.asStr) (simF_splitOff hE hN hs i) (fun _ _ => rfl) ?_)
    intro t u hu
    obtain ⟨ds, hd⟩ := holds_splitOff hN hs hu
    refine sim_view ?_
    rw [hd.asStr]
    exact calm_asStr hE hd
  | replaceRange r w =>
    exact (simF_call (simF_replaceRange hE hN hs r w)).mono fun u => left_of_cut (hstep nofun)
  | extendChars w =>
    refine sim_callUnit ?_
    unfold ArrayString.extendChars
    simp only [bind_assoc]
    refine sim_extend (ε := Error) hE hN hs (calm_fromCharsTruncate hE hN w) ?_
    intro t k e
    have h := fromCharsTruncate_script (N := N) (ε := Error) hN w
    revert h
    rcases gatherFit N (single w) with a | w' <;> intro h
    · rw [h.2] at e; cases e
    · obtain ⟨t', k', e', h'⟩ := h
      rw [e'] at e; cases e
      exact ⟨_, h'⟩
  | extendStrs ws =>
    refine sim_callUnit ?_
    unfold ArrayString.extendStrs
    simp only [bind_assoc]
    refine sim_extend (ε := Error) hE hN hs (calm_strs hE hN ws) ?_
    intro t k e
    have h := fromIteratorTruncate_script (N := N) (ε := Error) hN id id ws
    simp only [id] at h
    revert h
    rcases gatherFit N (ws.map (Option.map fun a => (a, a))) with a | w' <;> intro h
    · rw [h.2] at e; cases e
    · obtain ⟨t', k', e', h'⟩ := h
      rw [e'] at e; cases e
      exact ⟨_, h'⟩
  | add w =>
    have h := calm_onLocal (sim_pushStrTruncate (ε := Error) hE hN hs (calm_text (utf8 w)))
    refine Sim.self ?_
    obtain ⟨s', e, _⟩ := pushStrTruncate_ok (ε := Error) hN w hs
    have e2 : (ArrayString.pushStrTruncate (utf8 w) : M (ArrayString N) Error Unit).onLocal s = .ok ((), s') := by
      unfold M.onLocal; rw [e]
    have e3 : (s.add (utf8 w) : Res Error (ArrayString N)) = .ok s' := by
      unfold ArrayString.add; rw [e2]; rfl
    rw [e2] at h
    rw [e3]
    refine Sim.skip (calm_mapErr (f := Kind.kind) h) rfl ?_
    exact fun _ => .inl ⟨rfl, rfl⟩
  | writeStr w => exact sim_call (sim_writeStr hE hN hs w)
  | writeFmt ws => exact sim_call (sim_writeFmt hE hN ws hs)
  | index i => exact sim_query (calm_index hE hs i)
  | indexMut i e => exact sim_call (sim_indexMut hE hs i _)
  | asMutStr e => exact sim_call (sim_asMutStr hE hs _)
  | asStr =>
    refine sim_query ?_
    rw [hs.asStr]; exact calm_asStr hE hs
  | asBytes =>
    refine sim_query ?_
    rw [hs.asRefBytes]; exact calm_asRefBytes hE hs
  | len => exact sim_query (calm_len hE s)
  | isEmpty => exact sim_query (calm_isEmpty hE hs)
  | capacity => exact sim_query (calm_pure _)
  | eqStr w => exact sim_query (calm_eqStr hE hs _)
  | hash => exact sim_query (calm_hash hE hs _ _)
  | display => exact sim_query (calm_display hE hs)

/-! ## Overwritten strings -/

theorem utf8_prefix : ∀ {a ds : List Char} {r : Bytes}, utf8 ds = utf8 a ++ r → ∃ d, ds = a ++ d ∧ r = utf8 d
  | [], ds, r, h => ⟨ds, rfl, h.symm⟩
  | c :: a, ds, r, h => by
    have hc := utf8Size_pos c
    cases ds with
    | nil =>
      have := congrArg List.length h
      simp at this
      omega
    | cons d ds =>
      rw [utf8_cons, utf8_cons, List.append_assoc] at h
      have h1 := nextCodePoint_encode d (utf8 ds)
      rw [h, nextCodePoint_encode] at h1
      have e : c = d := Char.toNat_inj.1 (by simpa using congrArg (Option.map Prod.fst) h1)
      subst e
      obtain ⟨t, rfl, rfl⟩ := utf8_prefix (List.append_cancel_left h)
      exact ⟨t, rfl, rfl⟩

theorem boundary_of_drop {new : List Char} {k : Nat} {ds : List Char} (hk : k ≤ byteLen new)
    (h : (utf8 new).drop k = utf8 ds) : IsBoundary new k := by
  rw [← isCharBoundary_utf8]
  have := isCharBoundary_append ((utf8 new).take k) ((utf8 new).drop k) k (by simp; omega) (isCharBoundary_zero _)
    (by rw [h]; exact utf8_head ds)
  rw [List.take_append_drop] at this
  rw [this, show k - ((utf8 new).take k).length = 0 by simp; omega]
  exact isCharBoundary_zero _

/-- The bytes of an overwritten string. -/
theorem overwrite_bytes (hs : Holds s cs) {new : List Char} (hn : byteLen new ≤ N) :
    (overwrite s new).array.length = N ∧
    (overwrite s new).array.take (overwrite s new).size.toNat =
      if byteLen new ≤ byteLen cs then utf8 new ++ (utf8 cs).drop (byteLen new) else (utf8 new).take (byteLen cs) := by
  have h1 := hs.1
  have hl : s.size.toNat = byteLen cs := hs.len
  refine ⟨by simp [overwrite]; omega, ?_⟩
  show (utf8 new ++ _).take s.size.toNat = _
  rw [hl, List.take_append, length_utf8]
  split
  next h =>
    rw [List.take_of_length_le (by simpa using h), ← hs.2.2, hl, List.drop_take]
  next h =>
    rw [show byteLen cs - byteLen new = 0 by omega, List.take_zero, List.append_nil]

theorem overwrite_iff (hs : Holds s cs) {new : List Char} (hn : byteLen new ≤ N) :
    (∃ ds, Holds (overwrite s new) ds) ↔
      if byteLen new ≤ byteLen cs then IsBoundary cs (byteLen new) else IsBoundary new (byteLen cs) := by
  obtain ⟨h1, h2⟩ := overwrite_bytes hs hn
  have h3 : (overwrite s new).size.toNat ≤ N := hs.2.1
  unfold Holds
  rw [h2]
  split
  next h =>
    constructor
    · rintro ⟨ds, _, _, e⟩
      obtain ⟨d, _, e⟩ := utf8_prefix e.symm
      exact boundary_of_drop h e
    · rintro ⟨p, q, rfl, hp⟩
      refine ⟨new ++ q, h1, h3, ?_⟩
      rw [utf8_append, ← hp, utf8_append, List.drop_left' (by simp)]
  next h =>
    constructor
    · rintro ⟨ds, _, _, e⟩
      have e2 : utf8 new = utf8 ds ++ (utf8 new).drop (byteLen cs) := by rw [← e, List.take_append_drop]
      obtain ⟨d, rfl, _⟩ := utf8_prefix e2
      refine ⟨ds, d, rfl, ?_⟩
      have := congrArg List.length e
      simp at this h
      omega
    · rintro ⟨p, q, rfl, hp⟩
      refine ⟨p, h1, h3, ?_⟩
      rw [← hp, utf8_append, List.take_left' (by simp)]

end Verif.Logged
