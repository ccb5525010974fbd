import Verif.Proofs.MachineScan
import Verif.Proofs.BorrowOps

/-!
The accesses of `Model/MachineChars` in a world with a string value, and that they break no rule: between the
methods on bytes and the plain ones, as `Model/Borrow` is for `Model/Machine`.  Used in proofs only.
-/

namespace Verif.Borrow
open Spec

variable {R : Rules} {N : Nat} {ε α : Type}

/-- The accesses of `Machine.scan` when the bytes are `g`, as far as they are at `lo .. hi`. -/
def scan (t : Tag) (g : Nat → UInt8) (lo hi : Nat) : Machine.Scan α → M (World R N) ε Unit
  | .done _ => pure ()
  | .ub => pure ()
  | .byte l k =>
    if lo ≤ l ∧ l < hi then do
      let p ← retagShared t l (l + 1) false
      readAt p l (l + 1)
      scan t g lo hi (k (g l))
    else pure ()

namespace Chars

/-- `Machine.Chars.chars` and a scan of the text. -/
def lookFor (self : Tag) (sc : Nat → Machine.Scan α) : M (World R N) ε Unit := do
  let (a, n) ← asStr self
  let a ← through a 0 n 0 n
  let s ← get
  scan a (Machine.bytesOf s) 0 n (sc n)

def pop (self : Tag) : M (World R N) ε (Option Char) := do
  lookFor self fun n => Machine.Scan.last 0 n
  let s ← get
  let b ← M.lift s.asStr
  let last := (Str.chars b).getLast?
  let c ← retagUnique self N (N + 1) false
  passUnique c N (N + 1) fun c =>
    match last with
    | none => pure none
    | some ch => passUnique c N (N + 1) fun c => do
      readAt c N (N + 1)
      let s ← get
      let size ← M.lift (subU8 s.size (intoLossy (Str.lenUtf8 ch)))
      setSize c size
      pure (some ch)

def trim (self : Tag) : M (World R N) ε Unit := do
  let n ← len self
  lookFor self fun k => Machine.Scan.trimStart n k k 0
  let s ← get
  let b ← M.lift s.asStr
  let start := ArrayString.trimStart n (Str.charIndices b)
  let n ← len self
  lookFor self fun k => Machine.Scan.trimEnd start k n k
  match ArrayString.trimEnd start n (Str.charIndices b).reverse with
  | none => setSize self 0
  | some stop => do
    let _ ← M.attempt (callMut self fun self => replaceRangeOn self emptyLit (.from_ stop) [])
    let _ ← M.attempt (callMut self fun self => replaceRangeOn self emptyLit (.to start) [])
    pure ()

/-- `Machine.Chars.first`. -/
def first (self : Tag) (idx stop : Nat) : M (World R N) ε Unit := do
  let (a, n) ← asStr self
  let s ← get
  (if idx ≤ stop then readBoundary a 0 n idx else pure ())
  (if idx ≤ stop ∧ Str.isCharBoundary (s.array.take s.len) idx then readBoundary a 0 n stop else pure ())
  match Str.get? (s.array.take s.len) idx stop with
  | none => pure ()
  | some _ => do
    let a ← through a 0 n idx stop
    let a ← through a idx stop idx stop
    scan a (Machine.bytesOf s) idx stop (Machine.Scan.next idx stop)

def remove (self : Tag) (idx : Nat) : M (World R N) Error Char := do
  let n ← len self
  M.try_ (isInsideBoundary (saturatingAdd idx 1) n)
  M.tryM (isCharBoundary self idx)
  let n ← len self
  let stop ← M.lift (if idx = n then .ok idx else addUsize idx 1)
  let stop ← removeScan self stop
  first self idx stop
  let s ← get
  let b ← M.lift s.asStr
  match Str.get? b idx stop with
  | none => M.lift (.err .outOfBounds)
  | some sub =>
    match (Str.chars sub).head? with
    | none => M.lift (.err .utf8)
    | some ch => do
      let stop ← M.lift (addUsize idx (Str.lenUtf8 ch))
      callMut self fun self => replaceRangeOn self emptyLit (.range idx stop) []
      pure ch

def retainLoop {φ : Type} (t out : Tag) (f : ArrayString.Pred φ) (g : Nat → UInt8) (hi : Nat) :
    φ → Nat → List Char → M (World R N) ε φ
  | q, _, [] => pure q
  | q, lo, c :: cs => do
    scan t g lo hi (Machine.Scan.next lo hi)
    match f q c with
    | none => M.lift .panic
    | some (false, q) => retainLoop t out f g hi q (lo + Str.lenUtf8 c) cs
    | some (true, q) => do
      let r ← M.attempt (callMut out fun out => tryPush out c)
      match r with
      | .ok () => retainLoop t out f g hi q (lo + Str.lenUtf8 c) cs
      | .error _ => pure q

def retained {φ : Type} (self : Tag) (f : ArrayString.Pred φ) (q : φ) : M (World R N) ε (φ × ArrayString N) := do
  let (a, n) ← asStr self
  let s ← get
  let b ← M.lift s.asStr
  let a ← through a 0 n 0 n
  withNew 0 n fun out => retainLoop a out f (fun l => b[l - (N + 1)]?.getD 0) (N + 1 + n) q (N + 1) (Str.chars b)

def retain {φ : Type} (self : Tag) (f : ArrayString.Pred φ) (q : φ) : M (World R N) ε φ := do
  let (q, out) ← retained self f q
  writeAt self 0 (N + 1)
  put out
  pure q

def drainEnds (d : Tag) : List End → M (World R N) ε (List (Option Char))
  | [] => pure []
  | .front :: es => do
    let r ← M.attempt (callMut d fun d => callMut d fun s => remove s 0)
    let os ← drainEnds d es
    match r with
    | .ok c => pure (some c :: os)
    | .error _ => pure (none :: os)
  | .back :: es => do
    let o ← callMut d fun d => callMut d fun s => pop s
    let os ← drainEnds d es
    pure (o :: os)

def exec (caller arg : Tag) (op : Op) : M (World R N) Failure Out :=
  match op with
  | .pop => method (ε := Error) caller pop .optChar
  | .trim => method (ε := Error) caller trim fun _ => .unit
  | .remove i => method caller (fun self => remove self i) .char
  | .retain f => method (ε := Error) caller (fun self => retain self (logged f) []) fun _ => .unit
  | .drain r es => call (do
      let d ← callMut caller fun self => drain self r
      let (os, s) ← withLocal d.inner 0 0 fun d => do
        let os ← drainEnds d es
        let _ ← look d
        pure os
      let b ← M.lift s.asStr
      pure (os, b)) fun p => .drained p.1 p.2
  | _ => Borrow.exec caller arg op

end Chars

variable {L : Laws R} {φ : Nat → R.St → Prop} {A : Text R N} {T P : Nat → List Tag} {w : World R N}
variable {root self arg caller : Tag} {c : Nat → List Ref} {d q : List Ref}

section
variable {b : Nat → Tag} {B : Nat → R.St → Prop} {total : Nat} {s : ArrayString N}

theorem runs_scan {t : Tag} {g : Nat → UInt8} {lo hi : Nat} {sc : Machine.Scan α} (ht : Usable b T t lo hi)
    (hh : hi ≤ total) :
    Runs L b B total s (scan t g lo hi sc : M (World R N) ε Unit) T P (fun _ _ => True) := by
  induction sc generalizing T with
  | done a => exact runs_pure trivial
  | ub => exact runs_pure trivial
  | byte l k ih =>
    unfold scan
    split
    · next h =>
      refine runs_bind (runs_shared (fun l' h1 h2 => ht l' (by omega) (by omega)) (by omega)) fun p T1 k1 c1 => ?_
      exact runs_bind (runs_read c1.usable (by omega)) fun _ T2 k2 _ => ih _ (ht.grow (k1.trans k2))
    · exact runs_pure trivial

theorem runs_lookFor {sc : Nat → Machine.Scan α} (hself : Usable b T self 0 (N + 1)) (hh : N + 1 ≤ total)
    (hs : s.len ≤ N) :
    Runs L b B total s (Chars.lookFor self sc : M (World R N) ε Unit) T P (fun _ _ => True) := by
  unfold Chars.lookFor
  refine runs_bind (runs_asStr hself hh hs) fun r T1 k1 h1 => ?_
  obtain ⟨a, n⟩ := r
  obtain ⟨rfl, c1⟩ := h1
  refine runs_bind (runs_through c1.usable (by omega) (Nat.le_refl _) (Nat.le_refl _)) fun a T2 k2 c2 => ?_
  exact runs_bind runs_get fun x T3 k3 _ => runs_scan (c2.grow k3).usable (by omega)

theorem runs_first {idx stop : Nat} (hself : Usable b T self 0 (N + 1)) (hh : N + 1 ≤ total) (hs : Shape s) :
    Runs L b B total s (Chars.first self idx stop : M (World R N) ε Unit) T P (fun _ _ => True) := by
  have hl := hs.2
  unfold Chars.first
  refine runs_bind (runs_asStr hself hh hs.2) fun r T1 k1 h1 => ?_
  obtain ⟨a, n⟩ := r
  obtain ⟨rfl, c1⟩ := h1
  refine runs_bind runs_get fun x T2 k2 hx => ?_
  subst hx
  refine runs_bind (Q := fun _ _ => True) ?_ fun _ T3 k3 _ => ?_
  · split
    · exact runs_readBoundary (by simpa using (c1.grow k2).usable) (by omega)
    · exact runs_pure trivial
  refine runs_bind (Q := fun _ _ => True) ?_ fun _ T4 k4 _ => ?_
  · split
    · exact runs_readBoundary (by simpa using ((c1.grow k2).grow k3).usable) (by omega)
    · exact runs_pure trivial
  have c4 := ((c1.grow k2).grow k3).grow k4
  split
  · exact runs_pure trivial
  · next t ht =>
    have hb : idx ≤ stop ∧ stop ≤ x.len := by
      unfold Str.get? at ht
      split at ht
      · next h =>
        refine ⟨h.1, ?_⟩
        have := h.2.2
        unfold Str.isCharBoundary at this
        have hlen : (x.array.take x.len).length = x.len := by
          rw [List.length_take, hs.1]; omega
        rw [hlen] at this
        by_cases h0 : stop = 0
        · omega
        · rw [if_neg h0] at this
          by_cases h1 : x.len ≤ stop
          · rw [if_pos h1] at this
            simp at this
            omega
          · omega
      · cases ht
    refine runs_bind (runs_through c4.usable (by omega) (Nat.zero_le _) hb.2) fun a T5 k5 c5 => ?_
    refine runs_bind (runs_through c5.usable (by omega) (Nat.le_refl _) (Nat.le_refl _)) fun a T6 k6 c6 => ?_
    exact runs_scan c6.usable (by omega)

end

theorem State.lookFor {sc : Nat → Machine.Scan α} (h : State L φ A T P w)
    (hb : ∀ l, l ≤ N → L.Stable self (φ l)) (hs : Shape w.str) :
    ∃ w' T', (Chars.lookFor self sc : M (World R N) ε Unit) w = (.ok (), w') ∧ w'.str = w.str ∧
      State L φ A T' P w' ∧ Keeps N T T' := by
  obtain ⟨a, w', T', h1, h2, h3, h4, h5⟩ := h.run (b := fun _ => self) hb
    (runs_lookFor (ε := ε) (sc := sc) (usable_self (fun _ _ => rfl)) A.lt hs.2)
  exact ⟨w', T', h1, h2, h3, h4⟩

theorem State.first {idx stop : Nat} (h : State L φ A T P w)
    (hb : ∀ l, l ≤ N → L.Stable self (φ l)) (hs : Shape w.str) :
    ∃ w' T', (Chars.first self idx stop : M (World R N) ε Unit) w = (.ok (), w') ∧ w'.str = w.str ∧
      State L φ A T' P w' ∧ Keeps N T T' := by
  obtain ⟨a, w', T', h1, h2, h3, h4, h5⟩ := h.run (b := fun _ => self) hb
    (runs_first (ε := ε) (idx := idx) (stop := stop) (usable_self (fun _ _ => rfl)) A.lt hs)
  exact ⟨w', T', h1, h2, h3, h4⟩

theorem sim_chars_pop (h : State L (Home L root (own self d)) A T P w) (hd : useAll d = d) (hs : Shape w.str) :
    Same L (Home L root (own self d)) A P T (Chars.pop self : M _ ε _) ArrayString.pop w := by
  refine sim_right (b := w.str) rfl ?_
  obtain ⟨w1, T1, e1, s1, g1, k1⟩ := h.lookFor (ε := ε) (sc := fun n => Machine.Scan.last 0 n) stable_own hs
  refine sim_left e1 s1 k1 (sim_left (m := get) (a := w.str) (w' := w1) (by rw [← s1]; rfl) rfl .refl ?_)
  have hs1 : Shape w1.str := by rw [s1]; exact hs
  refine sim_lift_bind g1 hs1 fun b hb => ?_
  obtain ⟨hl, hv⟩ := asStr_ok hb
  generalize hlast : (Str.chars b).getLast? = last
  refine sim_closure g1 hd fun u k w2 s2 hk g2 => ?_
  have hs2 : Shape w2.str := by rw [s2]; exact hs1
  cases last with
  | none => exact sim_pure g2 hs2 rfl
  | some ch =>
    refine sim_passSize g2 tag_push (use_push rfl hk) fun v w3 s3 g3 => ?_
    obtain ⟨_, w4, T4, e4, s4, g4, k4, _⟩ := g3.run stable_home
      (runs_read (ε := ε) (lo := N) (hi := N + 1) (t := v) (fun l h1 h2 => by
        obtain rfl : l = N := by omega
        exact Or.inl (by simp only [bases, if_pos (Nat.le_refl _)]; exact (tag_push (r := ⟨v, .used, true⟩)).symm))
        (show N + 1 ≤ A.total from A.lt))
    have hw : w4.str = w.str := by rw [s4, s3, s2, s1]
    have hs4 : Shape w4.str := by rw [hw]; exact hs
    refine sim_left e4 s4 k4 (sim_left (m := get) (a := w.str) (w' := w4) (by rw [← hw]; rfl) rfl .refl ?_)
    refine sim_lift_bind g4 hs4 fun z hz => ?_
    refine sim_bind (Q := fun a b _ => a = b) (m₀ := M.setSelf { w.str with size := z }) ?_
      (fun _ _ _ h => h) (fun _ _ w5 T5 _ g5 _ hs5 _ => sim_pure g5 hs5 rfl)
    have := sim_setSize (ε := ε) (z := z) g4 tag_push (use_push rfl (use_push rfl hk)) hs4
      (Nat.le_trans (sub_u8 hz (by
        have h1 := last_size hv hlast
        have h2 := w.str.size.toNat_lt
        rw [show b.length = w.str.size.toNat from hl] at h1
        rw [intoLossy, UInt8.toNat_ofNat', Nat.mod_eq_of_lt (by rw [Str.lenUtf8]; omega)]
        exact h1)) hs.2)
    rw [← hw]
    exact this

theorem sim_chars_trim [ValidCapacity N] (h : State L (Home L root (own self d)) A T P w) (hd : useAll d = d) (hs : Shape w.str) :
    Same L (Home L root (own self d)) A P T (Chars.trim self : M _ ε _) ArrayString.trim w := by
  refine sim_right (b := w.str) rfl ?_
  obtain ⟨w1, T1, e1, s1, g1, k1⟩ := h.len (ε := ε) stable_own
  have hs1 : Shape w1.str := by rw [s1]; exact hs
  obtain ⟨w2, T2, e2, s2, g2, k2⟩ := g1.lookFor (ε := ε) (sc := fun k => Machine.Scan.trimStart w.str.len k k 0) stable_own hs1
  have hs2 : Shape w2.str := by rw [s2]; exact hs1
  refine sim_left e1 s1 k1 (sim_left e2 s2 k2 (sim_left (m := get) (a := w.str) (w' := w2)
    (by rw [← s1, ← s2]; rfl) rfl .refl ?_))
  refine sim_lift_bind g2 hs2 fun b _ => ?_
  obtain ⟨w3, T3, e3, s3, g3, k3⟩ := g2.len (ε := ε) stable_own
  have hs3 : Shape w3.str := by rw [s3]; exact hs2
  obtain ⟨w4, T4, e4, s4, g4, k4⟩ := g3.lookFor (ε := ε) (sc := fun k => Machine.Scan.trimEnd (ArrayString.trimStart w.str.len (Str.charIndices b)) k w.str.len k) stable_own hs3
  have hs4 : Shape w4.str := by rw [s4]; exact hs3
  have hw : w4.str = w.str := by rw [s4, s3, s2, s1]
  rw [s2, s1] at e3
  refine sim_left e3 s3 k3 (sim_left e4 s4 k4 ?_)
  dsimp only
  generalize ArrayString.trimEnd (ArrayString.trimStart w.str.len (Str.charIndices b)) w.str.len
    (Str.charIndices b).reverse = stop
  generalize ArrayString.trimStart w.str.len (Str.charIndices b) = start
  cases stop with
  | none =>
    have := sim_setSize (ε := ε) (self := self) (z := 0) (c := own self d) g4 rfl (fun _ => use_own hd) hs4 (Nat.zero_le _)
    rw [← hw]
    exact this
  | some stop =>
    have cutOff : ∀ {w5 T5} (r : RangeB), State L (Home L root (own self d)) A T5 P w5 → Shape w5.str →
        Same L (Home L root (own self d)) A P T5
          (M.attempt (callMut self fun self => replaceRangeOn self emptyLit r []) : M _ ε _)
          (M.attempt (ArrayString.replaceRange r [])) w5 := by
      intro w5 T5 r g5 hs5
      refine sim_attempt (sim_callOwn g5 hd fun d' u w6 hd' s6 g6 => ?_)
      exact sim_replaceRangeOn g6 hd' A.lt (fun l h1 h2 => absurd h2 (Nat.not_lt_of_le h1))
        (by rw [s6]; exact hs5)
    refine sim_bind (cutOff _ g4 hs4) (fun _ _ _ h => h) fun _ _ w5 T5 _ g5 _ hs5 _ => ?_
    refine sim_bind (cutOff _ g5 hs5) (fun _ _ _ h => h) fun _ _ w6 T6 _ g6 _ hs6 _ => ?_
    exact sim_pure g6 hs6 rfl

theorem sim_chars_remove [ValidCapacity N] {idx : Nat} (h : State L (Home L root (own self d)) A T P w) (hd : useAll d = d)
    (hs : Shape w.str) :
    Same L (Home L root (own self d)) A P T (Chars.remove self idx) (ArrayString.remove idx) w := by
  obtain ⟨s, hw⟩ : ∃ s, w.str = s := ⟨_, rfl⟩
  refine sim_right (b := s) (by rw [hw]; rfl) ?_
  obtain ⟨w1, T1, e1, s1, g1, k1⟩ := h.len (ε := Error) stable_own
  have hs1 : Shape w1.str := by rw [s1]; exact hs
  rw [hw] at e1 s1
  refine sim_left e1 (by rw [s1, hw]) k1 (sim_try_bind g1 hs1 fun _ _ => ?_)
  have b1 := sim_tryBoundary (idx := idx) g1 stable_own hs1
  rw [s1] at b1
  refine sim_bind b1 (fun _ _ _ h => h) fun _ _ w2 T2 e2 g2 k2 hs2 _ => ?_
  replace e2 : w2.str = s := by
    have := congrArg Prod.snd e2
    rw [← s1]; exact this.symm
  obtain ⟨w3, T3, e3, s3, g3, k3⟩ := g2.len (ε := Error) stable_own
  have hs3 : Shape w3.str := by rw [s3]; exact hs2
  refine sim_left e3 s3 k3 ?_
  rw [e2]; rw [e2] at s3
  refine sim_lift_bind g3 hs3 fun stop hstop => ?_
  have b3 := sim_removeScan (stop := stop) g3 hs3 (by
    split at hstop
    · cases hstop
      have := usizeMax_ge
      have := s.size.toNat_lt
      subst idx
      show s.size.toNat ≤ _
      omega
    · exact addUsize_le hstop)
  rw [s3] at b3
  refine sim_bind b3 (fun _ _ _ h => h) ?_
  rintro stop _ w4 T4 e4 g4 k4 hs4 rfl
  replace e4 : w4.str = s := by
    have := congrArg Prod.snd e4
    rw [← s3]; exact this.symm
  obtain ⟨w5, T5, e5, s5, g5, k5⟩ := g4.first (ε := Error) (idx := idx) (stop := stop) stable_own hs4
  have hs5 : Shape w5.str := by rw [s5]; exact hs4
  rw [e4] at s5
  refine sim_left e5 (by rw [s5, e4]) k5 (sim_left (m := get) (a := s) (w' := w5) (by rw [← s5]; rfl) rfl
    .refl ?_)
  refine sim_lift_bind g5 hs5 fun b _ => ?_
  cases Str.get? b idx stop with
  | none => exact sim_lift g5 hs5
  | some sub =>
    simp only
    cases (Str.chars sub).head? with
    | none => exact sim_lift g5 hs5
    | some ch =>
      refine sim_lift_bind g5 hs5 fun stop _ => ?_
      refine sim_bind (Q := fun a b _ => a = b) (sim_callOwn g5 hd fun d' u w6 hd' s6 g6 => ?_) (fun _ _ _ h => h)
        fun _ _ w7 T7 _ g7 _ hs7 _ => sim_pure g7 hs7 rfl
      exact sim_replaceRangeOn g6 hd' A.lt (fun l h1 h2 => absurd h2 (Nat.not_lt_of_le h1))
        (by rw [s6]; exact hs5)

theorem sim_chars_drainEnds [ValidCapacity N] {es : List End} (h : State L (Home L root fun _ => []) A T P w) (hs : Shape w.str) :
    Same L (Home L root fun _ => []) A P T (Chars.drainEnds root es : M _ ε _) (ends es) w := by
  induction es generalizing w T with
  | nil => exact sim_pure h hs rfl
  | cons e es ih =>
    cases e with
    | front =>
      refine sim_bind (Q := fun a b _ => a = b)
        (sim_attempt (sim_callMut (c := []) h rfl rfl fun t u w1 s1 g1 =>
          sim_callOwn g1 rfl fun d' u w2 hd' s2 g2 => sim_chars_remove g2 hd' (by rw [s2, s1]; exact hs)))
        (fun _ _ _ h => h) ?_
      rintro r _ w1 T1 _ g1 _ hs1 rfl
      refine sim_bind (ih g1 hs1) (fun _ _ _ h => h) ?_
      rintro os _ w2 T2 _ g2 _ hs2 rfl
      cases r <;> exact sim_pure g2 hs2 rfl
    | back =>
      refine sim_bind (Q := fun a b _ => a = b)
        (sim_callMut (c := []) h rfl rfl fun t u w1 s1 g1 =>
          sim_callOwn g1 rfl fun d' u w2 hd' s2 g2 => sim_chars_pop g2 hd' (by rw [s2, s1]; exact hs))
        (fun _ _ _ h => h) ?_
      rintro r _ w1 T1 _ g1 _ hs1 rfl
      refine sim_bind (ih g1 hs1) (fun _ _ _ h => h) ?_
      rintro os _ w2 T2 _ g2 _ hs2 rfl
      exact sim_pure g2 hs2 rfl

theorem sim_chars_drainCall [ValidCapacity N] {r : RangeB} {es : List End} (h : State L (Home L root fun _ => q) A T P w)
    (hs : Shape w.str) (hc : tagOf root q = caller := by rfl) (hq : useAll q = q := by rfl) :
    Same L (Home L root fun _ => q) A P T (do
      let d ← callMut caller fun self => drain self r
      let (os, s) ← withLocal d.inner 0 0 fun d => do
        let os ← Chars.drainEnds d es
        let _ ← look d
        pure os
      let b ← M.lift s.asStr
      pure (os, b)) (do
      let d ← ArrayString.drain r
      let (os, d) ← M.lift ((Verif.drainEnds es).onLocal d)
      let b ← M.lift d.asStr
      pure (os, b)) w := by
  refine sim_bind (Q := fun x y _ => x = y ∧ Shape x.inner) (sim_callMut h hc hq
    fun t u w1 s1 g1 => sim_drain g1 (use_q hq) (by rw [s1]; exact hs)) (fun _ _ _ h => h) ?_
  rintro x _ w1 T1 _ g1 _ hs1 ⟨rfl, hx⟩
  have hl : RunsR L (bases (fun _ => caller) A) (props (Home L root fun _ => q) A) A.total w1.str
      (withLocal x.inner 0 0 fun d => do
        let os ← Chars.drainEnds d es
        let _ ← look d
        pure os) (above N T1) (above N P) ((Verif.drainEnds es : M _ Error _).onLocal x)
      (fun a b _ => a.1 = b.1 ∧ a.2 = b.2.inner) := by
    have := runsR_local (L := L) (b := bases (fun _ => caller) A) (B := props (Home L root fun _ => q) A)
      (total := A.total) (s := w1.str) (T := above N T1) (P := above N P) (init := x.inner) (lo := 0) (hi := 0)
      (body := fun d => (do
        let os ← Chars.drainEnds d es
        let _ ← look d
        pure os : M (World R N) Error _)) (m₀ := ends es >>= pure) (Nat.zero_le _) fun root v hv g => ?_
    · rw [bind_pure_] at this
      rw [ends_local]
      refine runsR_map this ?_
      rintro _ y _ ⟨rfl, _⟩
      exact ⟨rfl, rfl⟩
    · refine sim_bind (sim_chars_drainEnds g (by rw [hv]; exact hx)) (fun _ _ _ h => h) ?_
      rintro os _ w2 T2 _ g2 _ hs2 rfl
      exact sim_looked g2 hs2
  refine sim_bind (g1.runR (b := fun _ => caller) (stable_top hc) hs1 hl) (fun _ _ _ h => h) ?_
  rintro ⟨os, s⟩ ⟨_, ⟨s⟩⟩ w2 T2 _ g2 _ hs2 ⟨rfl, rfl⟩
  exact sim_lift_bind g2 hs2 fun b _ => sim_pure g2 hs2 rfl


theorem sim_chars_retainLoop [ValidCapacity N] {κ : Type} {f : ArrayString.Pred κ} {t : Tag} {n : Nat} {q : κ} {lo : Nat}
    {cs : List Char} {bytes : Nat → UInt8} (h : State L (Home L root fun _ => []) A T P w) (hs : Shape w.str)
    (ht : Usable A.b T t (N + 1) (N + 1 + n)) (hn : N + 1 + n ≤ A.total) (hp : N + 1 ≤ lo) :
    Same L (Home L root fun _ => []) A P T (Chars.retainLoop t root f bytes (N + 1 + n) q lo cs : M _ ε _) (fill f q cs) w := by
  induction cs generalizing q lo w T with
  | nil => exact sim_pure h hs rfl
  | cons c cs ih =>
    obtain ⟨_, w1, T1, e1, s1, g1, k1, _⟩ := h.run stable_home
      (runs_scan (ε := ε) (g := bytes) (lo := lo) (hi := N + 1 + n) (t := t) (sc := Machine.Scan.next lo (N + 1 + n))
        (usable_text (fun l h1 h2 => ht l (by omega) (by omega)) (by omega)) (by omega))
    have hs1 : Shape w1.str := by rw [s1]; exact hs
    have ht1 := k1.usable ht (by omega)
    unfold Chars.retainLoop fill
    refine sim_left e1 s1 k1 ?_
    cases f q c with
    | none => exact sim_lift g1 hs1
    | some x =>
      obtain ⟨k, q'⟩ := x
      cases k with
      | false => exact ih g1 hs1 ht1 (by omega)
      | true =>
        have hc : Same L (Home L root fun _ => []) A P T1
            (M.attempt (callMut root fun out => tryPush out c) : M _ ε _)
            (M.attempt (ArrayString.tryPush c)) w1 :=
          sim_attempt (sim_callMut (c := []) g1 rfl rfl fun t u w2 s2 g2 =>
            sim_tryPush g2 rfl (by rw [s2]; exact hs1))
        refine sim_bind hc (fun _ _ _ h => h) ?_
        rintro r _ w3 T3 _ g3 k3 hs3 rfl
        cases r with
        | ok u => exact ih g3 hs3 (k3.usable ht1 (by omega)) (by omega)
        | error e => exact sim_pure g3 hs3 rfl

theorem runsR_chars_retained [ValidCapacity N] {κ : Type} {f : ArrayString.Pred κ} {q : κ} {b : Nat → Tag}
    {B : Nat → R.St → Prop} {total : Nat} {s : ArrayString N} (hself : Usable b T self 0 (N + 1))
    (hh : N + 1 ≤ total) (hs : s.len ≤ N) :
    RunsR L b B total s (Chars.retained self f q : M _ ε _) T P
      (s.asStr >>= fun bytes => (fill f q (Str.chars bytes)).onLocal .new) fun x y _ => x = y ∧ Shape x.2 := by
  refine runsR_left (runs_asStr hself hh hs) ?_
  rintro ⟨a, n⟩ T1 k1 ⟨rfl, c1⟩
  refine runsR_left runs_get fun s' T3 k3 e => ?_
  subst s'
  refine runsR_lift_bind fun bytes hb => ?_
  obtain ⟨hl, hv⟩ := asStr_ok hb
  refine runsR_left (runs_through (c1.grow k3).usable (by omega) (Nat.le_refl _) (Nat.le_refl _)) fun u T2 k2 c2 => ?_
  refine runsR_new (by omega) fun root v hv' g => ?_
  exact sim_chars_retainLoop (n := s.len) g (by rw [hv']; exact shape_new)
    (fun l h1 h2 => Or.inr (c2 _ (by omega) (by omega))) (show _ ≤ N + 1 + (s.len - 0) by omega) (Nat.le_refl _)

theorem sim_chars_retain [ValidCapacity N] {κ : Type} {f : ArrayString.Pred κ} {q : κ}
    (h : State L (Home L root (own self d)) A T P w) (hd : useAll d = d) (hs : Shape w.str) :
    Same L (Home L root (own self d)) A P T (Chars.retain self f q : M _ ε _) (ArrayString.retain f q) w := by
  refine sim_right (b := w.str) rfl ?_
  have b1 := h.runR (b := fun _ => self) stable_own hs (runsR_chars_retained (f := f) (q := q) (ε := ε)
    (usable_self (fun _ _ => rfl)) A.lt hs.2)
  simp only [fill_eq] at b1
  have hp : ∀ g : ArrayString N × (List Char × κ) → M (ArrayString N) ε κ,
      (M.lift w.str.asStr >>= fun b =>
        M.lift (ArrayString.fromCharsTruncate (ArrayString.filterIter f) (Str.chars b, q)) >>= g) =
      (M.lift (w.str.asStr >>= fun b =>
        ArrayString.fromCharsTruncate (ArrayString.filterIter f) (Str.chars b, q)) >>= g) := by
    intro g
    cases (w.str.asStr : Res ε Bytes) <;> rfl
  rw [show (w.str.asStr >>= fun b => ArrayString.fromCharsTruncateLoop (ArrayString.filterIter f) (Str.chars b, q)
      (.new : ArrayString N) >>= fun x => Res.ok (x.2.2, x.1)) =
    ((w.str.asStr >>= fun b => ArrayString.fromCharsTruncateLoop (ArrayString.filterIter f) (Str.chars b, q)
      (.new : ArrayString N)) >>= fun x => (.ok (x.2.2, x.1) : Res ε _)) from by
        cases (w.str.asStr : Res ε Bytes) <;> rfl] at b1
  have b2 : Sim L (Home L root (own self d)) A P T (Chars.retained self f q : M _ ε _)
      (M.lift (w.str.asStr >>= fun b =>
        ArrayString.fromCharsTruncate (ArrayString.filterIter f) (Str.chars b, q))) w
      (fun x y _ => x.1 = y.2.2 ∧ x.2 = y.1 ∧ Shape x.2) := by
    unfold ArrayString.fromCharsTruncate
    generalize (w.str.asStr >>= fun b => ArrayString.fromCharsTruncateLoop (ArrayString.filterIter f)
      (Str.chars b, q) (.new : ArrayString N)) = r at b1
    obtain ⟨r', w1, T1, e1, s1, m1, g1⟩ := b1
    refine ⟨r', w1, T1, e1, s1, ?_, fun hr => g1 ?_⟩
    · cases r with
      | ok y =>
        replace m1 : Match _ r' (.ok (y.2.2, y.1)) := m1
        cases m1 with
        | ok hx =>
          obtain ⟨rfl, hz⟩ := hx
          exact .ok ⟨rfl, rfl, hz⟩
      | err e => cases m1; exact .err
      | panic => cases m1; exact .panic
      | ub => cases m1; exact .ub
      | diverge => cases m1; exact .diverge
    · cases r <;> simp_all [Settled, bind, Res.bind, M.lift]
  refine (hp _) ▸ sim_bind b2 (fun _ _ _ h => h) ?_
  rintro ⟨q', out⟩ ⟨_, cs, _⟩ w1 T1 _ g1 k1 hs1 ⟨rfl, rfl, hz⟩
  obtain ⟨w2, e2, s2, _, g2⟩ := g1.touch (ε := ε) (lo := 0) (hi := N + 1) (f := R.write self)
    (φ' := Home L root (own self d)) (Nat.le_refl _)
    (fun l st _ _ hm hb => by
      obtain ⟨st', p1, p2, p3⟩ := Top.write hm hb
      refine ⟨st', p1, ?_, p3⟩
      rw [show useAll (own self d l) = own self d l from use_own hd] at p2
      exact p2)
    (fun l st _ _ h => h)
  refine sim_left (a := ()) e2 s2 .refl ?_
  refine ⟨.ok q', { w2 with str := out }, T1, rfl, rfl, .ok rfl, fun _ => ⟨g2.put _, .refl, hz⟩⟩

/-- Every call. -/
theorem sim_chars_exec [ValidCapacity N] {op : Op}
    (g : State L (Home L root fun _ => q) A T P w) (hs : Shape w.str)
    (ht : ∀ t ∈ texts op, N + 1 + (utf8 t).length ≤ A.total) (ha : Usable A.b T arg (N + 1) A.total)
    (hc : tagOf root q = caller) (hq : useAll q = q) :
    Same L (Home L root fun _ => q) A P T (Chars.exec caller arg op) (Verif.exec op) w := by
  cases op with
  | pop => exact sim_method (hc := hc) (hq := hq) g fun d u w' hd s g => sim_chars_pop g hd (by rw [s]; exact hs)
  | trim => exact sim_method (hc := hc) (hq := hq) g fun d u w' hd s g => sim_chars_trim g hd (by rw [s]; exact hs)
  | remove i => exact sim_method (hc := hc) (hq := hq) g fun d u w' hd s g => sim_chars_remove g hd (by rw [s]; exact hs)
  | retain f => exact sim_method (hc := hc) (hq := hq) g fun d u w' hd s g => sim_chars_retain g hd (by rw [s]; exact hs)
  | drain r es => exact sim_call (sim_chars_drainCall g hs hc hq)
  | _ => exact sim_execVia g hs ht ha hc hq

end Verif.Borrow
