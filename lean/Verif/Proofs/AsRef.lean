import Verif.Spec.AsRef
import Verif.Proofs.LogsWorld

/-! # `impl AsRef<str>` arguments that do not always answer the same -/

namespace Verif.Logged
open Verif Spec

variable {W ε ε' α β : Type} {N : Nat} {A : Crash → Prop} {E : Env W} {s : ArrayString N} {cs : List Char}

theorem quiet_of_off (h : Off E) : Tame A E := fun lvl ⟨w, hw⟩ => by rw [h lvl w] at hw; cases hw
theorem logKeeps_of_off {K : W → W → Prop} (h : Off E) : LogKeeps K E := fun lvl ⟨w, hw⟩ => by
  rw [h lvl w] at hw; cases hw

instance {σ : Type} : Steady (Eq : σ → σ → Prop) := ⟨fun _ => rfl, fun h1 h2 => h1.trans h2⟩

/-! ## No level enabled -/

theorem record_off (h : Off E) (lvl : Level) (args : M W Empty (M W Empty Bytes)) :
    (record E lvl args : M W ε Unit) = pure () := by
  funext w
  unfold record
  rw [h lvl w]
  rfl

/-- A call simulated without the feature, by a computation that leaves the world alone. -/
theorem off_eq {P : ArrayString N → Prop} {x : M (ArrayString N × W) ε α} {m : M (ArrayString N) ε α}
    (h1 : Sim (fun _ => False) P s s x m) (h2 : Keeps (Both Eq) x) (w : W) :
    x (s, w) = ((m s).1, (m s).2, w) := by
  have h2 : w = (x (s, w)).2.2 := h2 (s, w)
  rcases h1 w with ⟨h3, h4⟩ | ⟨_, h, _⟩
  · exact Prod.ext h3 (Prod.ext h4 h2.symm)
  · exact h.elim

theorem askedOnce_eq {a : AsRefStr W} (ha : Honest a) {g : Bytes → M (ArrayString N × W) ε α}
    {m : Bytes → M (ArrayString N) ε α} (h : ∀ t w, g (utf8 t) (s, w) = ((m (utf8 t) s).1, (m (utf8 t) s).2, w))
    (w : W) : (view (fun _ => noErr a) >>= g) (s, w) = askedOnce a m (s, w) := by
  unfold askedOnce
  have ha := ha w
  rw [bind_fst_snd]
  dsimp only [view, noErr, M.mapErr]
  rcases hw : a w with ⟨r, w'⟩
  rw [hw] at ha
  cases r with
  | ok b =>
    obtain ⟨t, rfl⟩ := ha b rfl
    exact h t w'
  | err e => cases e
  | _ => rfl

theorem replaceRange_ask (h : Off E) (r : RangeB) (a : AsRefStr W) :
    (replaceRange E r a : M (ArrayString N × W) Error Unit) =
      (view (fun _ => noErr a) >>= fun b => replaceRange E r (text b)) := by
  simp only [replaceRange_split, record_off h]
  rfl

theorem replaceRange_off (h : Off E) (hN : N ≤ 255) (hs : Holds s cs) {a : AsRefStr W} (ha : Honest a) (r : RangeB)
    (w : W) : replaceRange E r a (s, w) = askedOnce a (ArrayString.replaceRange r) (s, w) := by
  rw [replaceRange_ask h]
  exact askedOnce_eq ha (fun t w => off_eq (simF_replaceRange (quiet_of_off h) hN hs r t)
    (keeps_replaceRange (logKeeps_of_off h) r (keeps_text _)) w) w

theorem tryPushStr_off (h : Off E) (hN : N ≤ 255) (hs : Holds s cs) {a : AsRefStr W} (ha : Honest a)
    (w : W) : tryPushStr E a (s, w) = askedOnce a ArrayString.tryPushStr (s, w) := by
  have e : (tryPushStr E a : M (ArrayString N × W) _ Unit) (s, w) =
      (view (fun _ => noErr a) >>= fun b => tryPushStr E (text b)) (s, w) := by
    simp only [tryPushStr, record_off h, len, note, replaceRange_ask h _ a]
    simp only [M.bind_apply, M.mapErr_apply, view, noErr, M.pure_apply]
    rcases a w with ⟨r, w'⟩
    cases r with
    | err e => cases e
    | _ => rfl
  rw [e]
  exact askedOnce_eq ha (fun t w => off_eq (sim_tryPushStr (quiet_of_off h) hN hs t)
    (keeps_tryPushStr (logKeeps_of_off h) (keeps_text _)) w) w

theorem pushStrTruncate_off (h : Off E) (hN : N ≤ 255) (hs : Holds s cs) {a : AsRefStr W} (ha : Honest a)
    (w : W) : (pushStrTruncate E a : M _ ε Unit) (s, w) = askedOnce a ArrayString.pushStrTruncate (s, w) := by
  have e : (pushStrTruncate E a : M (ArrayString N × W) ε Unit) (s, w) =
      (view (fun _ => noErr a) >>= fun b => pushStrTruncate E (text b)) (s, w) := by
    simp only [pushStrTruncate, record_off h, len, note]
    simp only [M.bind_apply, view, noErr, M.pure_apply, M.mapErr_apply]
    rcases a w with ⟨r, w'⟩
    cases r with
    | err e => cases e
    | _ => rfl
  rw [e]
  exact askedOnce_eq ha (fun t w => off_eq (sim_pushStrTruncate (quiet_of_off h) hN hs (calm_text _))
    (keeps_pushStrTruncate (logKeeps_of_off h) (keeps_text _)) w) w

theorem tryInsertStr_off (h : Off E) (hN : N ≤ 255) (hs : Holds s cs) {a : AsRefStr W} (ha : Honest a) (i : Nat)
    (w : W) : tryInsertStr E i a (s, w) =
      if i ≤ byteLen cs then askedOnce a (ArrayString.tryInsertStr i) (s, w) else (.err .outOfBounds, s, w) := by
  have e : tryInsertStr E i a (s, w) =
      if i ≤ byteLen cs then replaceRange E (.range i i) a (s, w) else (.err .outOfBounds, s, w) := by
    simp only [tryInsertStr, record_off h, len, note, checkInside, tryOutOfBounds, isInsideBoundary, noteOutOfBounds]
    simp only [M.bind_apply, view, M.pure_apply, M.attempt_apply, M.lift_apply, hs.len]
    by_cases hi : i ≤ byteLen cs
    · rw [isInsideBoundary_ok hi, if_pos hi]
      rfl
    · rw [isInsideBoundary_err hi, if_neg hi]
      rfl
  rw [e]
  by_cases hi : i ≤ byteLen cs
  · rw [if_pos hi, if_pos hi, replaceRange_off h hN hs ha]
    unfold askedOnce
    rcases a w with ⟨r, w'⟩
    cases r with
    | ok b => simp only [tryInsertStr_eq hs hi]
    | err e => cases e
    | _ => rfl
  · rw [if_neg hi, if_neg hi]

theorem insertStrTruncate_off (h : Off E) (hN : N ≤ 255) (hs : Holds s cs) {a : AsRefStr W} (ha : Honest a)
    (i : Nat) (w : W) : insertStrTruncate E i a (s, w) = askedOnce a (ArrayString.insertStrTruncate i) (s, w) := by
  have e : (insertStrTruncate E i a : M (ArrayString N × W) _ Unit) (s, w) =
      (view (fun _ => noErr a) >>= fun b => insertStrTruncate E i (text b)) (s, w) := by
    simp only [insertStrTruncate, record_off h, len, note]
    simp only [M.bind_apply, view, noErr, M.pure_apply, M.mapErr_apply]
    rcases a w with ⟨r, w'⟩
    cases r with
    | err e => cases e
    | _ => rfl
  rw [e]
  exact askedOnce_eq ha (fun t w => off_eq (simF_insertStrTruncate (quiet_of_off h) hN hs i t)
    (keeps_insertStrTruncate (logKeeps_of_off h) i (keeps_text _)) w) w

/-- A constructor that pushes to a string gives the string, if the push succeeds. -/
def made (r : Res ε Unit) (u : ArrayString N) : Res ε (ArrayString N) :=
  match r with
  | .ok _ => .ok u
  | .err e => .err e
  | .panic => .panic
  | .ub => .ub
  | .diverge => .diverge

theorem onLocal_made {x : M (ArrayString N × W) ε Unit} {w w' : W} {r : Res ε Unit} {u : ArrayString N}
    (h : x (s, w) = (r, u, w')) :
    (do let ((), u) ← onLocal x s; pure u : M W ε (ArrayString N)) w = (made r u, w') := by
  rw [M.bind_apply]
  unfold onLocal
  rw [h]
  cases r <;> rfl

theorem base_made (m : M (ArrayString N) ε Unit) :
    (do let ((), u) ← m.onLocal s; pure u : Res ε (ArrayString N)) = made (m s).1 (m s).2 := by
  rw [base_onLocal]
  generalize m s = q
  rcases q with ⟨r, u⟩
  cases r <;> rfl

theorem onLocal_askedOnce {a : AsRefStr W} {m : Bytes → M (ArrayString N) ε Unit}
    {x : M (ArrayString N × W) ε Unit} (w : W) (h : x (s, w) = askedOnce a m (s, w)) :
    (do let ((), u) ← onLocal x s; pure u : M W ε (ArrayString N)) w =
      (noErr a >>= fun b => M.lift (do let ((), u) ← (m b).onLocal s; pure u)) w := by
  have key : ∀ {r : Res Empty Bytes} {w' : W}, a w = (r, w') →
      (noErr a >>= fun b => M.lift (do let ((), u) ← (m b).onLocal s; pure u) : M W ε (ArrayString N)) w =
        match r with
        | .ok b => ((do let ((), u) ← (m b).onLocal s; pure u), w')
        | .err e => nomatch e
        | .panic => (.panic, w')
        | .ub => (.ub, w')
        | .diverge => (.diverge, w') := by
    intro r w' hw
    rw [M.bind_apply]
    unfold noErr
    rw [M.mapErr_apply, hw]
    cases r with
    | err e => cases e
    | _ => rfl
  unfold askedOnce at h
  rcases hw : a w with ⟨r, w'⟩
  rw [key hw]
  simp only [hw] at h
  cases r with
  | ok b =>
    rw [onLocal_made h]
    exact Prod.ext (base_made (m b)).symm rfl
  | err e => cases e
  | _ => rw [onLocal_made h]; rfl

theorem tryFromStr_off (h : Off E) (hN : N ≤ 255) {a : AsRefStr W} (ha : Honest a) (w : W) :
    (tryFromStr E a : M W _ (ArrayString N)) w =
      (noErr a >>= fun b => M.lift (ArrayString.tryFromStr b)) w := by
  have e : (tryFromStr E a : M W _ (ArrayString N)) =
      (do let ((), s) ← onLocal (tryPushStr E a) ArrayString.new; pure s) := by
    unfold tryFromStr
    rw [record_off h]
    rfl
  rw [e]
  exact onLocal_askedOnce w (tryPushStr_off h hN holds_new ha w)

theorem fromStrTruncate_off (h : Off E) (hN : N ≤ 255) {a : AsRefStr W} (ha : Honest a) (w : W) :
    (fromStrTruncate E a : M W ε (ArrayString N)) w =
      (noErr a >>= fun b => M.lift (ArrayString.fromStrTruncate b)) w := by
  have e : (fromStrTruncate E a : M W ε (ArrayString N)) =
      (do let ((), s) ← onLocal (pushStrTruncate E a) ArrayString.new; pure s) := by
    unfold fromStrTruncate
    rw [record_off h]
    rfl
  rw [e]
  exact onLocal_askedOnce w (pushStrTruncate_off h hN holds_new ha w)

theorem honest_answering (a : M W Empty (List Char)) : Honest (answering a) := by
  intro w b h
  unfold answering at h
  rw [bind_fst_snd] at h
  cases e : (a w).1 with
  | ok t => rw [e] at h; cases h; exact ⟨t, rfl⟩
  | _ => rw [e] at h; cases h

/-- The string and the world a loop ends with, against the text it should have added. -/
def Added (cs : List Char) (x : Res ε Unit × ArrayString N × W) (y : Res ε (List Char) × W) : Prop :=
  x.2.2 = y.2 ∧ match y.1 with
    | .ok ds => x.1 = .ok () ∧ Holds x.2.1 (cs ++ ds)
    | .err e => x.1 = .err e
    | .panic => x.1 = .panic
    | .ub => x.1 = .ub
    | .diverge => x.1 = .diverge

theorem Added.then {t : List Char} {x : Res ε Unit × ArrayString N × W} {y : M W ε (List Char)} {w : W}
    (h : Added (cs ++ t) x (y w)) : Added cs x ((y >>= fun out => pure (t ++ out)) w) := by
  obtain ⟨h1, h2⟩ := h
  rw [bind_fst_snd]
  rcases hy : y w with ⟨r, w'⟩
  rw [hy] at h1 h2
  refine ⟨?_, ?_⟩
  · cases r <;> exact h1
  · cases r with
    | ok ds => exact ⟨h2.1, by rw [← List.append_assoc]; exact h2.2⟩
    | _ => exact h2

theorem answering_apply (a : M W Empty (List Char)) (w : W) : answering a w = (match (a w).1 with
    | .ok t => .ok (utf8 t)
    | .err e => nomatch e
    | .panic => .panic
    | .ub => .ub
    | .diverge => .diverge, (a w).2) := by
  unfold answering
  rw [bind_fst_snd]
  rcases a w with ⟨r, w'⟩
  cases r with
  | err e => cases e
  | _ => rfl

theorem noErr_run {x : M W Empty α} {r : Res Empty α} {w w' : W} (h : x w = (r, w')) :
    (noErr x : M W ε α) w = (r.mapErr (fun e => nomatch e), w') := by
  unfold noErr
  simp only [M.mapErr_apply, h]
  cases r with
  | err e => cases e
  | _ => rfl

theorem noErr_done {x : M W Empty α} {b : α} {w w' : W} (h : x w = (.ok b, w')) :
    (noErr x : M W ε α) w = (.ok b, w') := noErr_run h

/-- What the argument did, as an answer. -/
def encoded (r : Res Empty (List Char)) : Res ε Bytes :=
  match r with
  | .ok t => .ok (utf8 t)
  | .err e => nomatch e
  | .panic => .panic
  | .ub => .ub
  | .diverge => .diverge

theorem view_run {a : M W Empty (List Char)} {r : Res Empty (List Char)} {w w' : W} (h : a w = (r, w')) :
    (view (fun _ => noErr (answering a)) : M (ArrayString N × W) ε Bytes) (s, w) = (encoded r, s, w') := by
  have e : answering a w = (encoded r, w') := by
    rw [answering_apply]
    simp only [h]
    rfl
  have e := noErr_run (ε := ε) e
  unfold view
  dsimp only
  rw [e]
  cases r with
  | err e0 => exact nomatch e0
  | _ => rfl

theorem view_answering {a : M W Empty (List Char)} {t : List Char} {w w' : W} (h : a w = (.ok t, w')) :
    (view (fun _ => noErr (answering a)) : M (ArrayString N × W) ε Bytes) (s, w) = (.ok (utf8 t), s, w') := view_run h

theorem bind_done {σ : Type} {x : M σ ε α} {f : α → M σ ε β} {p p' : σ} {a : α} (h : x p = (.ok a, p')) :
    (x >>= f) p = f a p' := by rw [M.bind_apply, h]

theorem tryFromIteratorLoop_off (h : Off E) (hN : N ≤ 255) (k : Script (M W Empty (List Char))) (hs : Holds s cs)
    (w : W) : Added cs (tryFromIteratorLoop E (k.map (Option.map answering)) (s, w))
      (gatherInTurn (N - byteLen cs) k w) := by
  induction k generalizing s cs w with
  | nil => exact ⟨rfl, rfl, by rw [List.append_nil]; exact hs⟩
  | cons o k ih =>
    cases o with
    | none => exact ⟨rfl, rfl⟩
    | some a =>
      have hle := hs.le
      have hp := tryPushStr_off h hN hs (honest_answering a) w
      unfold askedOnce at hp
      simp only [answering_apply] at hp
      show Added cs ((tryPushStr E (answering a) >>= fun _ => tryFromIteratorLoop E (k.map (Option.map answering))) (s, w)) _
      unfold gatherInTurn
      rw [bind_fst_snd, bind_fst_snd, hp]
      unfold noErr
      rw [M.mapErr_apply]
      rcases hw : a w with ⟨r, w'⟩
      cases r with
      | err e => cases e
      | ok t =>
        simp only
        by_cases hf : byteLen t ≤ N - byteLen cs
        · obtain ⟨s', e, hh⟩ := tryPushStr_ok hN hs (show byteLen cs + byteLen t ≤ N by omega)
          simp only [e, Res.mapErr, if_pos hf]
          refine Added.then ?_
          have := ih hh w'
          rw [byteLen_append, ← Nat.sub_sub] at this
          exact this
        · simp only [tryPushStr_err hN hs (show N < byteLen cs + byteLen t by omega), Res.mapErr, if_neg hf]
          exact ⟨rfl, rfl⟩
      | _ => exact ⟨rfl, rfl⟩

theorem added_made {x : M (ArrayString N × W) ε Unit} {w : W} {y : M W ε (List Char)}
    (h : Added [] (x (ArrayString.new, w)) (y w)) :
    (do let ((), u) ← onLocal x ArrayString.new; M.lift u.asStr : M W ε Bytes) w = (do let t ← y; pure (utf8 t)) w := by
  obtain ⟨h1, h2⟩ := h
  rw [bind_fst_snd, bind_fst_snd]
  unfold onLocal
  rcases hx : x (ArrayString.new, w) with ⟨r, u, w'⟩
  rcases hy : y w with ⟨r', w''⟩
  rw [hx, hy] at h1 h2
  cases h1
  cases r' with
  | ok ds =>
    obtain ⟨h2, h3⟩ := h2
    cases h2
    exact Prod.ext (Holds.asStr (ε := ε) h3) rfl
  | _ => cases h2; rfl

theorem tryFromIterator_off (h : Off E) (hN : N ≤ 255) (k : Script (M W Empty (List Char))) (w : W) :
    (do let s ← (tryFromIterator E (k.map (Option.map answering)) : M W _ (ArrayString N)); M.lift s.asStr : M W _ Bytes) w =
      (do let t ← gatherInTurn N k; pure (utf8 t)) w := by
  have e : (do let s ← (tryFromIterator E (k.map (Option.map answering)) : M W _ (ArrayString N)); M.lift s.asStr :
      M W _ Bytes) w = (do
        let ((), u) ← onLocal (tryFromIteratorLoop E (k.map (Option.map answering))) (ArrayString.new : ArrayString N)
        M.lift u.asStr : M W _ Bytes) w := by
    unfold tryFromIterator note
    rw [record_off h]
    simp only [M.bind_apply, M.pure_apply]
    generalize onLocal _ _ w = q
    rcases q with ⟨r, w'⟩
    cases r <;> rfl
  rw [e]
  exact added_made (tryFromIteratorLoop_off h hN k holds_new w)

theorem fromIteratorTruncateLoop_off (h : Off E) (hN : N ≤ 255)
    (k : Script (M W Empty (List Char) × M W Empty (List Char))) (hs : Holds s cs) (w : W) :
    Added cs ((fromIteratorTruncateLoop E (k.map (Option.map (Prod.map answering answering))) : M _ ε Unit) (s, w))
      (fillInTurn (N - byteLen cs) k w) := by
  induction k generalizing s cs w with
  | nil => exact ⟨rfl, rfl, by rw [List.append_nil]; exact hs⟩
  | cons o k ih =>
    cases o with
    | none => exact ⟨rfl, rfl⟩
    | some a =>
      have hle := hs.le
      have hq : ∀ t : List Char, ∀ w, (M.attempt (tryPushStr E (text (utf8 t))) : M (ArrayString N × W) ε _) (s, w) =
          ((M.attempt (ArrayString.tryPushStr (utf8 t)) : M _ ε _) s |>.1,
            (M.attempt (ArrayString.tryPushStr (utf8 t)) : M _ ε _) s |>.2, w) := by
        intro t w
        have := tryPushStr_off h hN hs (a := text (utf8 t)) (fun _ _ h => by cases h; exact ⟨t, rfl⟩) w
        rw [M.attempt_apply, M.attempt_apply, this]
        rfl
      have hp := pushStrTruncate_off (ε := ε) h hN hs (honest_answering a.2)
      unfold askedOnce at hp
      simp only [answering_apply] at hp
      show Added cs ((view (fun _ => noErr (answering a.1)) >>= fun b => M.attempt (tryPushStr E (text b)) >>= fun r =>
        match r with
        | .ok () => fromIteratorTruncateLoop E (k.map (Option.map (Prod.map answering answering)))
        | .error _ => pushStrTruncate E (answering a.2)) (s, w)) _
      unfold fillInTurn
      rcases hw : a.1 w with ⟨r, w'⟩
      cases r with
      | err e => cases e
      | ok t =>
        rw [bind_done (show view (fun _ => noErr (answering a.1)) (s, w) = (.ok (utf8 t), s, w') from
            view_answering hw), bind_done (noErr_done hw), bind_fst_snd, hq]
        by_cases hf : byteLen t ≤ N - byteLen cs
        · obtain ⟨s', e, hh⟩ := tryPushStr_ok hN hs (show byteLen cs + byteLen t ≤ N by omega)
          simp only [M.attempt_apply, e, if_pos hf]
          refine Added.then ?_
          have := ih hh w'
          rw [byteLen_append, ← Nat.sub_sub] at this
          exact this
        · simp only [M.attempt_apply, tryPushStr_err hN hs (show N < byteLen cs + byteLen t by omega), if_neg hf]
          show Added cs (pushStrTruncate E (answering a.2) (s, w')) _
          rw [hp]
          rcases hw : a.2 w' with ⟨r, w''⟩
          cases r with
          | err e => cases e
          | ok u =>
            obtain ⟨s', e, hh⟩ := pushStrTruncate_ok (ε := ε) hN u hs
            rw [bind_done (noErr_done hw)]
            simp only [e]
            exact ⟨rfl, rfl, hh⟩
          | _ => rw [bind_fst_snd, noErr_run hw]; exact ⟨rfl, rfl⟩
      | _ =>
        rw [bind_fst_snd, bind_fst_snd, noErr_run hw, view_run hw]
        exact ⟨rfl, rfl⟩

theorem fromIteratorTruncate_off (h : Off E) (hN : N ≤ 255)
    (k : Script (M W Empty (List Char) × M W Empty (List Char))) (w : W) :
    (do
      let s ← (fromIteratorTruncate E (k.map (Option.map (Prod.map answering answering))) : M W ε (ArrayString N))
      M.lift s.asStr : M W ε Bytes) w = (do let t ← fillInTurn N k; pure (utf8 t)) w := by
  have e : (do
      let s ← (fromIteratorTruncate E (k.map (Option.map (Prod.map answering answering))) : M W ε (ArrayString N))
      M.lift s.asStr : M W ε Bytes) w = (do
        let ((), u) ← onLocal (fromIteratorTruncateLoop E (k.map (Option.map (Prod.map answering answering))))
          (ArrayString.new : ArrayString N)
        M.lift u.asStr : M W ε Bytes) w := by
    unfold fromIteratorTruncate note
    rw [record_off h]
    simp only [M.bind_apply, M.pure_apply]
    generalize onLocal _ _ w = q
    rcases q with ⟨r, w'⟩
    cases r <;> rfl
  rw [e]
  exact added_made (fromIteratorTruncateLoop_off h hN k holds_new w)

/-! ## Loggers that return -/

/-- Whatever the world, the computation started at `s` ends as `O` says. -/
def Ends (O : Res ε α → ArrayString N → Prop) (s : ArrayString N) (x : M (ArrayString N × W) ε α) : Prop :=
  ∀ w, O (x (s, w)).1 (x (s, w)).2.1

variable {O : Res ε α → ArrayString N → Prop}

/-- A `&self` step that returns, or asks the argument, which does not. -/
theorem Ends.view {f : ArrayString N → M W ε β} {g : β → M (ArrayString N × W) ε α}
    (hf : Fine A (f s)) (hO : ∀ c, A c → O c.toRes s)
    (hg : ∀ b w, (f s w).1 = .ok b → Ends O s (g b)) : Ends O s (view f >>= g) := by
  intro w
  rcases hf w with ⟨b, hb⟩ | ⟨c, hc, hb⟩
  · have hv : (Logged.view f (s, w)).1 = .ok b := hb
    rw [bind_val hv]
    exact hg b w hb _
  · have hv : (Logged.view f (s, w)).1 = c.toRes := hb
    rw [bind_crash hv]
    exact hO c hc

/-- A `&self` step that does not ask. -/
theorem Ends.skip {f : ArrayString N → M W ε β} {b : β} {g : β → M (ArrayString N × W) ε α}
    (hf : Calm (fun _ => False) (f s) (.ok b)) (hg : Ends O s (g b)) : Ends O s (Logged.view f >>= g) := by
  refine Ends.view (A := fun _ => False) hf.fine (fun _ h => h.elim) ?_
  intro b' w h
  rcases hf w with h' | ⟨_, h', _⟩
  · rw [h'] at h; cases h; exact hg
  · exact h'.elim

theorem fine_bind {σ : Type} {x : M σ ε α} {f : α → M σ ε β} (hx : Fine A x) (hf : ∀ a, Fine A (f a)) :
    Fine A (x >>= f) := by
  intro w
  rcases hx w with ⟨a, h⟩ | ⟨c, hc, h⟩
  · rw [bind_val h]; exact hf a _
  · rw [bind_crash h]; exact .inr ⟨c, hc, rfl⟩

theorem fine_pure (a : α) : Fine A (pure a : M W ε α) := fun _ => .inl ⟨a, rfl⟩
theorem Calm.fineOf {x : M W ε α} {a : α} (h : Calm (fun _ => False) x (.ok a)) : Fine A x := fun w => by
  rcases h w with h | ⟨_, h, _⟩
  · exact .inl ⟨a, h⟩
  · exact h.elim

theorem fine_noErr {x : M W Empty α} (h : Fine A x) : Fine A (noErr x : M W ε α) := by
  intro w
  unfold noErr
  rw [M.mapErr_apply]
  rcases h w with ⟨a, h⟩ | ⟨c, hc, h⟩
  · left; exact ⟨a, by simp [h]⟩
  · right; refine ⟨c, hc, ?_⟩; simp only [h]; cases c <;> rfl

/-- The arguments of a log statement: evaluating them may be cut short, formatting the message not. -/
def FineArgs (A : Crash → Prop) (args : M W Empty (M W Empty Bytes)) : Prop :=
  ∀ w, (∃ m, (args w).1 = .ok m ∧ Fine (fun _ => False) m) ∨ ∃ c, A c ∧ (args w).1 = c.toRes

theorem fineArgs_pure {m : M W Empty Bytes} (h : Fine (fun _ => False) m) : FineArgs A (pure m) :=
  fun _ => .inl ⟨m, rfl, h⟩

theorem fineArgs_bind {x : M W Empty α} {f : α → M W Empty (M W Empty Bytes)} (hx : Fine A x)
    (hf : ∀ a, FineArgs A (f a)) : FineArgs A (x >>= f) := by
  intro w
  rcases hx w with ⟨a, h⟩ | ⟨c, hc, h⟩
  · rw [bind_val h]; exact hf a _
  · rw [bind_crash h]; exact .inr ⟨c, hc, rfl⟩

theorem fine_record (hE : Quiet E) {lvl : Level} {args : M W Empty (M W Empty Bytes)} (h : FineArgs A args) :
    Fine A (record E lvl args : M W ε Unit) := by
  intro w
  unfold record
  split
  · rename_i he
    refine fine_noErr (A := A) (x := args >>= E.log lvl) ?_ w
    intro w
    rcases h w with ⟨m, h, hm⟩ | ⟨c, hc, h⟩
    · rw [bind_val h]
      rcases hE lvl ⟨_, he⟩ m hm (args w).2 with h | ⟨_, h, _⟩
      · exact .inl h
      · exact h.elim
    · rw [bind_crash h]; exact .inr ⟨c, hc, rfl⟩
  · exact .inl ⟨(), rfl⟩

theorem fine_asked (a : AsRefStr W) : Fine (Falters a) a := by
  intro w
  cases h : (a w).1 with
  | ok b => exact .inl ⟨b, rfl⟩
  | err e => cases e
  | panic => exact .inr ⟨.panic, ⟨w, h⟩, rfl⟩
  | ub => exact .inr ⟨.ub, ⟨w, h⟩, rfl⟩
  | diverge => exact .inr ⟨.diverge, ⟨w, h⟩, rfl⟩

theorem answers_of {a : AsRefStr W} (ha : Honest a) {w : W} {b : Bytes}
    (h : (noErr a w : Res ε Bytes × W).1 = .ok b) : ∃ t, b = utf8 t ∧ Answers a t := by
  unfold noErr at h
  rw [M.mapErr_apply] at h
  cases hw : (a w).1 with
  | ok b' =>
    rw [hw] at h
    cases h
    obtain ⟨t, rfl⟩ := ha w _ hw
    exact ⟨t, rfl, w, hw⟩
  | err e => cases e
  | _ => rw [hw] at h; cases h

/-- The outcomes allowed by `WithSomeAnswer`. -/
def Some1 (a : AsRefStr W) (m : Bytes → M (ArrayString N) ε α) (s : ArrayString N) (r : Res ε α)
    (u : ArrayString N) : Prop :=
  (∃ t, Answers a t ∧ r = (m (utf8 t) s).1 ∧ u = (m (utf8 t) s).2) ∨ ∃ c, Falters a c ∧ r = c.toRes ∧ u = s

theorem ends_of_sim {P : ArrayString N → Prop} {a : AsRefStr W} {m : Bytes → M (ArrayString N) ε α} {t : List Char}
    (ht : Answers a t) {x : M (ArrayString N × W) ε α} (h : Sim (fun _ => False) P s s x (m (utf8 t))) :
    Ends (Some1 a m s) s x := by
  intro w
  rcases h w with ⟨h1, h2⟩ | ⟨_, h, _⟩
  · exact .inl ⟨t, ht, h1, h2⟩
  · exact h.elim

theorem falter {a : AsRefStr W} {m : Bytes → M (ArrayString N) ε α} (c : Crash) (hc : Falters a c) :
    Some1 a m s c.toRes s := .inr ⟨c, hc, rfl, rfl⟩

theorem ends_replaceRange (hE : Quiet E) (hN : N ≤ 255) (hs : Holds s cs) {a : AsRefStr W} (ha : Honest a)
    (r : RangeB) : Ends (Some1 a (ArrayString.replaceRange r) s) s (replaceRange E r a) := by
  rw [replaceRange_split]
  refine Ends.view (fine_noErr (fine_asked a)) falter fun b w hb => ?_
  obtain ⟨t, rfl, ht⟩ := answers_of ha hb
  refine Ends.skip (calm_rangeEnd hE r s) ?_
  refine Ends.view (fine_record hE (fineArgs_bind (calm_len hE s).fineOf fun _ => fineArgs_bind (fine_asked a) fun _ =>
    fineArgs_bind (fine_asked a) fun _ => fineArgs_pure (fine_pure _))) falter fun _ _ _ => ?_
  exact ends_of_sim ht (sim_replaceRest hE hN hs r _)

theorem ends_tryPushStr (hE : Quiet E) (hN : N ≤ 255) (hs : Holds s cs) {a : AsRefStr W} (ha : Honest a) :
    Ends (Some1 a ArrayString.tryPushStr s) s (tryPushStr E a) := by
  unfold tryPushStr
  refine Ends.view (fine_record hE (fineArgs_bind (fine_asked a) fun _ => fineArgs_pure (fine_pure _))) falter
    fun _ _ _ => ?_
  refine Ends.skip (calm_len hE s) ?_
  intro w
  rw [M.mapErr_apply]
  rcases ends_replaceRange hE hN hs ha (.range s.len s.len) w with ⟨t, ht, h1, h2⟩ | ⟨c, hc, h1, h2⟩
  · exact .inl ⟨t, ht, by rw [h1]; rfl, h2⟩
  · refine .inr ⟨c, hc, ?_, h2⟩
    rw [h1]; cases c <;> rfl

theorem ends_pushStrTruncate (hE : Quiet E) (hN : N ≤ 255) (hs : Holds s cs) {a : AsRefStr W} (ha : Honest a) :
    Ends (Some1 a (ArrayString.pushStrTruncate (ε := ε)) s) s (pushStrTruncate E a) := by
  unfold pushStrTruncate
  refine Ends.view (fine_record hE (fineArgs_bind (fine_asked a) fun _ => fineArgs_pure (fine_pure _))) falter
    fun _ _ _ => ?_
  refine Ends.view (fine_noErr (fine_asked a)) falter fun b w hb => ?_
  obtain ⟨t, rfl, ht⟩ := answers_of ha hb
  refine ends_of_sim (P := (Holds · cs)) ht ?_
  unfold ArrayString.pushStrTruncate
  refine Sim.self ?_
  refine Sim.skip (calm_len hE s) hs ?_
  refine Sim.step fun room _ => ?_
  refine Sim.check (calm_truncateStr hE _ _) hs fun t ht => ?_
  rw [truncateStr_utf8] at ht
  cases ht
  exact Sim.bind (sim_attempt (sim_tryPushStr hE hN hs _)) fun _ _ _ => sim_pure ()

theorem ends_tryInsertStr (hE : Quiet E) (hN : N ≤ 255) (hs : Holds s cs) {a : AsRefStr W} (ha : Honest a) (i : Nat) :
    Ends (fun r u => if i ≤ byteLen cs then Some1 a (ArrayString.tryInsertStr i) s r u
      else u = s ∧ (r = .err .outOfBounds ∨ ∃ c, Falters a c ∧ r = c.toRes)) s (tryInsertStr E i a) := by
  unfold tryInsertStr
  obtain ⟨d, hd⟩ := calm_showDebug hE hs
  have hd : Fine (fun _ => False) (showDebug E s) := hd.fine
  refine Ends.view (A := Falters a) (fine_record hE (fineArgs_bind (fine_asked a) fun _ => fineArgs_pure
    (fine_bind hd fun _ => fine_pure _))) ?_ fun _ _ _ => ?_
  · intro c hc
    split
    · exact falter c hc
    · exact ⟨rfl, .inr ⟨c, hc, rfl⟩⟩
  have hcheck : Calm (fun _ => False) ((len E s >>= fun n => checkInside E i n) : M W Error Unit) _ :=
    (calm_len hE s).then (calm_checkInside hE i s.len)
  by_cases hi : i ≤ byteLen cs
  · simp only [hi, if_true]
    rw [hs.len, isInsideBoundary_ok hi] at hcheck
    refine Ends.skip hcheck ?_
    have := ends_replaceRange hE hN hs ha (.range i i)
    intro w
    rcases this w with ⟨t, ht, h1, h2⟩ | h
    · refine .inl ⟨t, ht, ?_, ?_⟩
      · rw [tryInsertStr_eq hs hi]; exact h1
      · rw [tryInsertStr_eq hs hi]; exact h2
    · exact .inr h
  · simp only [hi, if_false]
    rw [hs.len, isInsideBoundary_err hi] at hcheck
    intro w
    rw [bind_fst_snd]
    have : (Logged.view (fun s : ArrayString N => (len E s >>= fun n => checkInside E i n : M W Error Unit)) (s, w)).1
        = .err .outOfBounds := by
      rcases hcheck w with h | ⟨_, h, _⟩
      · exact h
      · exact h.elim
    rw [this]
    exact ⟨rfl, .inl rfl⟩

theorem ends_insertStrTruncate (hE : Quiet E) (hN : N ≤ 255) (hs : Holds s cs) {a : AsRefStr W} (ha : Honest a)
    (i : Nat) : Ends (Some1 a (ArrayString.insertStrTruncate i) s) s (insertStrTruncate E i a) := by
  unfold insertStrTruncate
  have hd : Fine (fun _ => False) (showDisplay E s) := (calm_asStr hE hs).fine
  refine Ends.view (fine_record hE (fineArgs_bind (fine_asked a) fun _ => fineArgs_pure
    (fine_bind hd fun _ => fine_pure _))) falter fun _ _ _ => ?_
  refine Ends.view (fine_noErr (fine_asked a)) falter fun b w hb => ?_
  obtain ⟨t, rfl, ht⟩ := answers_of ha hb
  have key : SimF (fun _ => False) (Cut s) s (do
      let n ← Logged.view fun s => len E s
      let room ← M.lift (subUsize (ArrayString.capacity N) n)
      let t ← Logged.view fun _ => truncateStr E (utf8 t) room
      tryInsertStr E i (text t)) (ArrayString.insertStrTruncate i (utf8 t)) := by
    unfold ArrayString.insertStrTruncate
    refine SimF.self ?_
    refine SimF.skip (calm_len hE s) cut_refl ?_
    refine SimF.step fun room _ => ?_
    refine SimF.check (calm_truncateStr hE _ _) cut_refl fun t ht => ?_
    rw [truncateStr_utf8] at ht
    cases ht
    exact simF_tryInsertStr hE hN hs i _
  exact ends_of_sim ht key

/-! ## Constructors -/

theorem run_of_sim {P : ArrayString N → Prop} {x : M (ArrayString N × W) ε α} {m : M (ArrayString N) ε α}
    (h : Sim (fun _ => False) P s s x m) {r : Res ε α} {s' : ArrayString N} (hm : m s = (r, s')) (w : W) :
    ∃ w', x (s, w) = (r, s', w') := by
  rcases h w with ⟨h1, h2⟩ | ⟨_, h, _⟩
  · rw [hm] at h1 h2
    exact ⟨(x (s, w)).2.2, Prod.ext h1 (Prod.ext h2 rfl)⟩
  · exact h.elim

/-- Ends of a computation on a local string. -/
theorem onLocal_ends {x : M (ArrayString N × W) ε α} (h : Ends O s x) (w : W) :
    ∃ r u, O r u ∧ (onLocal x s w).1 = (match r with
      | .ok a => .ok (a, u)
      | .err e => .err e
      | .panic => .panic
      | .ub => .ub
      | .diverge => .diverge) := ⟨_, _, h w, onLocal_fst x s w⟩

theorem tryFromStr_some (hE : Quiet E) (hN : N ≤ 255) {a : AsRefStr W} (ha : Honest a) (w : W) :
    (∃ t, Answers a t ∧ (tryFromStr E a w).1 = (ArrayString.tryFromStr (utf8 t) : Res _ (ArrayString N))) ∨
    ∃ c, Falters a c ∧ (tryFromStr E a w).1 = (c.toRes : Res _ (ArrayString N)) := by
  unfold tryFromStr
  rcases fine_record (ε := OutOfBounds) (lvl := .trace) hE (fineArgs_bind (fine_asked a)
    fun b => fineArgs_pure (fine_pure (lit "Try from str: " ++ b))) w with ⟨_, h⟩ | ⟨c, hc, h⟩
  · rw [bind_val h]
    generalize (record E .trace _ w).2 = w'
    obtain ⟨r, u, hO, h⟩ := onLocal_ends (ends_tryPushStr hE hN (holds_new (N := N)) ha) w'
    rw [bind_fst_snd]
    rcases hO with ⟨t, ht, h1, h2⟩ | ⟨c, hc, h1, h2⟩
    · refine .inl ⟨t, ht, ?_⟩
      rw [h]
      unfold ArrayString.tryFromStr
      rw [base_onLocal, ← h1, ← h2]
      cases r <;> rfl
    · refine .inr ⟨c, hc, ?_⟩
      rw [h, h1]
      cases c <;> rfl
  · rw [bind_crash h]
    exact .inr ⟨c, hc, rfl⟩

theorem fromStrTruncate_some (hE : Quiet E) (hN : N ≤ 255) {a : AsRefStr W} (ha : Honest a) (w : W) :
    (∃ t, Answers a t ∧ (fromStrTruncate E a w).1 = (ArrayString.fromStrTruncate (utf8 t) : Res ε (ArrayString N))) ∨
    ∃ c, Falters a c ∧ (fromStrTruncate E a w).1 = (c.toRes : Res ε (ArrayString N)) := by
  unfold fromStrTruncate
  rcases fine_record (ε := ε) (lvl := .trace) hE (fineArgs_bind (fine_asked a)
    fun b => fineArgs_pure (fine_pure (lit "FromStr truncate: " ++ b))) w with ⟨_, h⟩ | ⟨c, hc, h⟩
  · rw [bind_val h]
    generalize (record E .trace _ w).2 = w'
    obtain ⟨r, u, hO, h⟩ := onLocal_ends (ends_pushStrTruncate (ε := ε) hE hN (holds_new (N := N)) ha) w'
    rw [bind_fst_snd]
    rcases hO with ⟨t, ht, h1, h2⟩ | ⟨c, hc, h1, h2⟩
    · refine .inl ⟨t, ht, ?_⟩
      rw [h]
      unfold ArrayString.fromStrTruncate
      rw [base_onLocal, ← h1, ← h2]
      cases r <;> rfl
    · refine .inr ⟨c, hc, ?_⟩
      rw [h, h1]
      cases c <;> rfl
  · rw [bind_crash h]
    exact .inr ⟨c, hc, rfl⟩

theorem Spoiled.cons {k : Script (AsRefStr W)} {c : Crash} {o : Option (AsRefStr W)} (h : Spoiled k c) :
    Spoiled (o :: k) c :=
  h.imp (fun h => ⟨.tail _ h.1, h.2⟩) fun ⟨a, h⟩ => ⟨a, .tail _ h.1, h.2⟩

theorem tryFromIteratorLoop_some (hE : Quiet E) (hN : N ≤ 255) (k : Script (AsRefStr W))
    (hk : ∀ a, some a ∈ k → Honest a) (hs : Holds s cs) :
    Ends (fun r u => (r = .ok () ∧ ∃ ds, Gathered (N - byteLen cs) k (some ds) ∧ Holds u (cs ++ ds)) ∨
      (r = .err {} ∧ Gathered (N - byteLen cs) k none) ∨ ∃ c, Spoiled k c ∧ r = c.toRes) s (tryFromIteratorLoop E k) := by
  have hle := hs.le
  induction k generalizing s cs with
  | nil => exact fun w => .inl ⟨rfl, [], .done _, by rw [List.append_nil]; exact hs⟩
  | cons o k ih =>
    cases o with
    | none => exact fun w => .inr (.inr ⟨.panic, .inl ⟨.head _, rfl⟩, rfl⟩)
    | some a =>
      intro w
      unfold tryFromIteratorLoop
      have ha := hk a (.head _)
      rcases ends_tryPushStr hE hN hs ha w with ⟨t, ht, h1, h2⟩ | ⟨c, hc, h1, h2⟩
      · by_cases hf : byteLen cs + byteLen t ≤ N
        · obtain ⟨s', e, hh⟩ := tryPushStr_ok hN hs hf
          rw [e] at h1 h2
          rw [bind_val h1]
          have := ih (fun a h => hk a (.tail _ h)) hh hh.le (tryPushStr E a (s, w)).2.2
          simp only at h2
          rw [← h2] at this
          rw [byteLen_append, show N - (byteLen cs + byteLen t) = N - byteLen cs - byteLen t by omega] at this
          rcases this with ⟨h3, ds, h4, h5⟩ | ⟨h3, h4⟩ | ⟨c, h3, h4⟩
          · refine .inl ⟨h3, t ++ ds, .fits ht (by omega) h4, ?_⟩
            rw [← List.append_assoc]; exact h5
          · exact .inr (.inl ⟨h3, .fits ht (by omega) h4⟩)
          · exact .inr (.inr ⟨c, h3.cons, h4⟩)
        · rw [tryPushStr_err hN hs (by omega)] at h1
          rw [bind_fst_snd, h1]
          exact .inr (.inl ⟨rfl, .over ht (by omega)⟩)
      · rw [bind_crash h1]
        exact .inr (.inr ⟨c, .inr ⟨a, .head _, hc⟩, rfl⟩)

theorem tryFromIterator_some (hE : Quiet E) (hN : N ≤ 255) (k : Script (AsRefStr W))
    (hk : ∀ a, some a ∈ k → Honest a) (w : W) :
    (∃ s ds, (tryFromIterator E k w).1 = .ok s ∧ Gathered N k (some ds) ∧ Holds (s : ArrayString N) ds) ∨
    ((tryFromIterator E k w).1 = (.err {} : Res _ (ArrayString N)) ∧ Gathered N k none) ∨
    ∃ c, Spoiled k c ∧ (tryFromIterator E k w).1 = (c.toRes : Res _ (ArrayString N)) := by
  unfold tryFromIterator
  have hn : (note E .trace (lit "FromIterator") w : Res OutOfBounds Unit × W).1 = .ok () :=
    (calm_note hE _ _ w).elim id fun ⟨_, h, _⟩ => h.elim
  rw [bind_val hn]
  generalize (note E .trace _ w).2 = w'
  obtain ⟨r, u, hO, h⟩ := onLocal_ends (tryFromIteratorLoop_some hE hN k hk (holds_new (N := N))) w'
  rw [bind_fst_snd, h]
  simp only [byteLen_nil, Nat.sub_zero, List.nil_append] at hO
  rcases hO with ⟨rfl, ds, h1, h2⟩ | ⟨rfl, h1⟩ | ⟨c, h1, rfl⟩
  · exact .inl ⟨u, ds, rfl, h1, h2⟩
  · exact .inr (.inl ⟨rfl, h1⟩)
  · refine .inr (.inr ⟨c, h1, ?_⟩)
    cases c <;> rfl

theorem Spoiled2.cons {k : Script (AsRefStr W × AsRefStr W)} {c : Crash} {o : Option (AsRefStr W × AsRefStr W)}
    (h : Spoiled2 k c) : Spoiled2 (o :: k) c :=
  h.imp (fun h => ⟨.tail _ h.1, h.2⟩) fun ⟨a, h⟩ => ⟨a, .tail _ h.1, h.2⟩

theorem fromIteratorTruncateLoop_some (hE : Quiet E) (hN : N ≤ 255) (k : Script (AsRefStr W × AsRefStr W))
    (hk : ∀ a, some a ∈ k → Honest a.1 ∧ Honest a.2) (hs : Holds s cs) :
    Ends (fun r u => (r = .ok () ∧ ∃ ds, Filled (N - byteLen cs) k ds ∧ Holds u (cs ++ ds)) ∨
      ∃ c, Spoiled2 k c ∧ r = c.toRes) s (fromIteratorTruncateLoop E k : M _ ε Unit) := by
  have hle := hs.le
  induction k generalizing s cs with
  | nil => exact fun w => .inl ⟨rfl, [], .done _, by rw [List.append_nil]; exact hs⟩
  | cons o k ih =>
    cases o with
    | none => exact fun w => .inr ⟨.panic, .inl ⟨.head _, rfl⟩, rfl⟩
    | some a =>
      unfold fromIteratorTruncateLoop
      obtain ⟨ha, ha'⟩ := hk a (.head _)
      refine Ends.view (A := Falters a.1) (fine_noErr (fine_asked a.1))
        (fun c hc => .inr ⟨c, .inr ⟨a, .head _, .inl hc⟩, rfl⟩) fun b w0 hb => ?_
      obtain ⟨t, rfl, ht⟩ := answers_of ha hb
      intro w
      have hsim := sim_attempt (ε' := ε) (sim_tryPushStr hE hN hs t)
      by_cases hf : byteLen cs + byteLen t ≤ N
      · obtain ⟨s', e, hh⟩ := tryPushStr_ok hN hs hf
        obtain ⟨w', e'⟩ := run_of_sim hsim (show M.attempt _ s = (.ok (.ok ()), s') by rw [M.attempt_apply, e]; rfl) w
        rw [bind_done e']
        have := ih (fun a h => hk a (.tail _ h)) hh hh.le w'
        rw [byteLen_append, show N - (byteLen cs + byteLen t) = N - byteLen cs - byteLen t by omega] at this
        rcases this with ⟨h3, ds, h4, h5⟩ | ⟨c, h3, h4⟩
        · refine .inl ⟨h3, t ++ ds, .fits ht (by omega) h4, ?_⟩
          rw [← List.append_assoc]; exact h5
        · exact .inr ⟨c, h3.cons, h4⟩
      · have e := tryPushStr_err hN hs (w := t) (by omega)
        obtain ⟨w', e'⟩ := run_of_sim hsim (show M.attempt _ s = (.ok (.error {}), s) by rw [M.attempt_apply, e]; rfl) w
        rw [bind_done e']
        rcases ends_pushStrTruncate (ε := ε) hE hN hs ha' w' with ⟨u, hu, h3, h4⟩ | ⟨c, hc, h3, h4⟩
        · obtain ⟨s', e, hh⟩ := pushStrTruncate_ok (ε := ε) hN u hs
          rw [e] at h3 h4
          refine .inl ⟨h3, _, .cut ht (by omega) hu (longestFit_takeFit _ _), ?_⟩
          show Holds (pushStrTruncate E a.2 (s, w')).2.1 _
          rw [h4]; exact hh
        · exact .inr ⟨c, .inr ⟨a, .head _, .inr hc⟩, h3⟩

theorem fromIteratorTruncate_some (hE : Quiet E) (hN : N ≤ 255) (k : Script (AsRefStr W × AsRefStr W))
    (hk : ∀ a, some a ∈ k → Honest a.1 ∧ Honest a.2) (w : W) :
    (∃ s ds, (fromIteratorTruncate E k w : Res ε _ × W).1 = .ok s ∧ Filled N k ds ∧ Holds (s : ArrayString N) ds) ∨
    ∃ c, Spoiled2 k c ∧ (fromIteratorTruncate E k w).1 = (c.toRes : Res ε (ArrayString N)) := by
  unfold fromIteratorTruncate
  have hn : (note E .trace (lit "FromIterator truncate") w : Res ε Unit × W).1 = .ok () :=
    (calm_note hE _ _ w).elim id fun ⟨_, h, _⟩ => h.elim
  rw [bind_val hn]
  generalize (note E .trace _ w).2 = w'
  obtain ⟨r, u, hO, h⟩ := onLocal_ends (fromIteratorTruncateLoop_some (ε := ε) hE hN k hk (holds_new (N := N))) w'
  rw [bind_fst_snd, h]
  simp only [byteLen_nil, Nat.sub_zero, List.nil_append] at hO
  rcases hO with ⟨rfl, ds, h1, h2⟩ | ⟨c, h1, rfl⟩
  · exact .inl ⟨u, ds, rfl, h1, h2⟩
  · refine .inr ⟨c, h1, ?_⟩
    cases c <;> rfl

end Verif.Logged
