import Verif.Model.Threads
import Verif.Proofs.Client

/-!
# Programs that read, step by step
-/

namespace Verif.Borrow
open Spec

variable {R : Rules} {L : Laws R} {N : Nat} {ε ε' α β γ δ : Type}

/-! ## Without a break -/

namespace Reader

theorem bind_def {p : Reader N ε α} {f : α → Reader N ε β} : p >>= f = p.bind f := rfl

theorem mbind_assoc {σ : Type} {m : M σ ε α} {f : α → M σ ε β} {g : β → M σ ε γ} :
    (m >>= f) >>= g = m >>= fun a => f a >>= g := by
  funext s
  show M.bind (M.bind m f) g s = M.bind m (fun a => M.bind (f a) g) s
  unfold M.bind
  rcases m s with ⟨r, s'⟩
  cases r <;> rfl

theorem run_bind {p : Reader N ε α} {f : α → Reader N ε β} :
    ((p >>= f).run : M (World R N) ε β) = p.run >>= fun a => (f a).run := by
  show (p.bind f).run = _
  induction p with
  | done r => cases r <;> rfl
  | retag t lo hi protect k ih => simp only [Reader.bind, run, mbind_assoc, ih]
  | read t lo hi k ih => simp only [Reader.bind, run, mbind_assoc, ih]
  | release t lo hi k ih => simp only [Reader.bind, run, mbind_assoc, ih]
  | look k ih => simp only [Reader.bind, run, mbind_assoc, ih]

theorem mapErr_bind {m : M (World R N) ε α} {m' : M (World R N) ε' α} {f : ε → ε'} {g : α → M (World R N) ε β}
    (h : M.mapErr f m = m') : M.mapErr f (m >>= g) = m' >>= fun a => M.mapErr f (g a) := by
  subst h
  funext w
  show M.mapErr f (M.bind m g) w = M.bind (M.mapErr f m) (fun a => M.mapErr f (g a)) w
  simp only [M.mapErr, M.bind]
  rcases m w with ⟨r, w'⟩
  cases r <;> rfl

theorem mapErr_touch {lo hi : Nat} {f : R.St → Option R.St} {g : ε → ε'} :
    M.mapErr g (touch lo hi f : M (World R N) ε Unit) = touch lo hi f := by
  funext w
  unfold M.mapErr touch
  split <;> rfl

theorem mapErr_retag {t : Tag} {lo hi : Nat} {p : Bool} {g : ε → ε'} :
    M.mapErr g (Borrow.retagShared t lo hi p : M (World R N) ε Tag) = Borrow.retagShared t lo hi p := by
  unfold Borrow.retagShared
  rw [mapErr_bind (m' := fresh) rfl]
  congr 1
  funext u
  rw [mapErr_bind mapErr_touch]
  rfl

theorem run_mapErr {p : Reader N ε α} {f : ε → ε'} :
    ((mapErr f p).run : M (World R N) ε' α) = M.mapErr f p.run := by
  unfold mapErr
  induction p with
  | done r => rfl
  | retag t lo hi protect k ih => simp only [onEnd, run, ih, mapErr_bind mapErr_retag]
  | read t lo hi k ih => simp only [onEnd, run, ih, Borrow.readAt, mapErr_bind mapErr_touch]
  | release t lo hi k ih => simp only [onEnd, run, ih, Borrow.release, mapErr_bind mapErr_touch]
  | look k ih => simp only [onEnd, run, ih, mapErr_bind (m := Borrow.get) (m' := Borrow.get) (f := f) rfl]

theorem protecting_bind {t : Tag} {lo hi : Nat} {m : M (World R N) ε α} {g : α → M (World R N) ε β}
    (h : ∀ w, (∃ a, (m w).1 = .ok a) ∨ (m w).1 = .ub) :
    Borrow.protecting t lo hi (m >>= g) = m >>= fun a => Borrow.protecting t lo hi (g a) := by
  funext w
  show Borrow.protecting t lo hi (M.bind m g) w = M.bind m (fun a => Borrow.protecting t lo hi (g a)) w
  have := h w
  unfold Borrow.protecting M.bind
  generalize m w = x at *
  rcases x with ⟨r, w'⟩
  rcases this with ⟨a, h⟩ | h
  · simp only at h; subst h; rfl
  · simp only at h; subst h; rfl

theorem touch_ends {lo hi : Nat} {f : R.St → Option R.St} (w : World R N) :
    (∃ a, ((touch lo hi f : M (World R N) ε Unit) w).1 = .ok a) ∨ ((touch lo hi f : M (World R N) ε Unit) w).1 = .ub := by
  unfold touch
  split
  · exact .inl ⟨(), rfl⟩
  · exact .inr rfl

theorem retag_ends {t : Tag} {lo hi : Nat} {p : Bool} (w : World R N) :
    (∃ a, ((Borrow.retagShared t lo hi p : M (World R N) ε Tag) w).1 = .ok a) ∨
      ((Borrow.retagShared t lo hi p : M (World R N) ε Tag) w).1 = .ub := by
  show (∃ a, (M.bind fresh _ w).1 = .ok a) ∨ (M.bind fresh _ w).1 = .ub
  unfold M.bind fresh
  simp only
  show (∃ a, (M.bind (touch lo hi _) _ _).1 = .ok a) ∨ (M.bind (touch lo hi _) _ _).1 = .ub
  unfold M.bind touch
  by_cases h : (List.range' lo (hi - lo)).all (fun l => (R.shared t w.next p (w.mem l)).isSome)
  · rw [if_pos h]; exact .inl ⟨_, rfl⟩
  · rw [if_neg h]; exact .inr rfl

theorem run_protecting {t : Tag} {lo hi : Nat} {p : Reader N ε α} :
    ((protecting t lo hi p).run : M (World R N) ε α) = Borrow.protecting t lo hi p.run := by
  unfold protecting
  induction p with
  | done r =>
    cases r <;> first
      | rfl
      | (funext w
         show M.bind (Borrow.release t lo hi) _ w = Borrow.protecting t lo hi (M.lift _) w
         unfold M.bind Borrow.protecting Borrow.release M.lift touch
         simp only
         by_cases h : (List.range' lo (hi - lo)).all (fun l => (R.release t (w.mem l)).isSome)
         · simp only [if_pos h, run]; rfl
         · simp only [if_neg h])
  | retag t lo hi protect k ih => simp only [onEnd, run, ih, protecting_bind retag_ends]
  | read t lo hi k ih => simp only [onEnd, run, ih, Borrow.readAt, protecting_bind touch_ends]
  | release t lo hi k ih => simp only [onEnd, run, ih, Borrow.release, protecting_bind touch_ends]
  | look k ih => simp only [onEnd, run, ih, protecting_bind (m := Borrow.get) (fun w => .inl ⟨_, rfl⟩)]

theorem mbind_pure {σ : Type} {m : M σ ε α} : (m >>= fun a => (pure a : M σ ε α)) = m := by
  funext s
  show M.bind m _ s = _
  unfold M.bind
  rcases m s with ⟨r, s'⟩
  cases r <;> rfl

theorem run_pure {a : α} : ((pure a : Reader N ε α).run : M (World R N) ε α) = pure a := rfl

theorem run_lift {r : Res ε α} : ((lift r : Reader N ε α).run : M (World R N) ε α) = M.lift r := rfl

theorem run_get : ((get : Reader N ε _).run : M (World R N) ε _) = Borrow.get := rfl

theorem run_retag {t : Tag} {lo hi : Nat} {p : Bool} :
    ((retagShared t lo hi p : Reader N ε Tag).run : M (World R N) ε _) = Borrow.retagShared t lo hi p :=
  mbind_pure

theorem run_read {t : Tag} {lo hi : Nat} :
    ((readAt t lo hi : Reader N ε Unit).run : M (World R N) ε _) = Borrow.readAt t lo hi := mbind_pure

theorem run_pass {t : Tag} {lo hi : Nat} {body : Tag → Reader N ε α} {body' : Tag → M (World R N) ε α}
    (h : ∀ u, (body u).run = body' u) :
    ((passShared t lo hi body).run : M (World R N) ε α) = Borrow.passShared t lo hi body' := by
  simp only [passShared, run_bind, run_retag, run_protecting, h]
  rfl

theorem run_through {t : Tag} {lo hi lo' hi' : Nat} :
    ((through t lo hi lo' hi' : Reader N ε Tag).run : M (World R N) ε Tag) = Borrow.through t lo hi lo' hi' := by
  simp only [through, run_bind, run_retag, run_pass fun _ => run_retag]
  rfl

theorem run_call {self : Tag} {body : Tag → Reader N ε α} {body' : Tag → M (World R N) ε α}
    (h : ∀ u, (body u).run = body' u) :
    ((callShared self body).run : M (World R N) ε α) = Borrow.callShared self body' := by
  simp only [callShared, run_bind, run_retag, run_pass h]
  rfl

theorem run_callRef {self : Tag} {body : Tag → Reader N ε (Tag × Nat)} {body' : Tag → M (World R N) ε (Tag × Nat)}
    (h : ∀ u, (body u).run = body' u) :
    ((callRef self body).run : M (World R N) ε _) = Borrow.callRef self body' := by
  simp only [callRef, run_bind, run_retag, run_call h, run_pure]
  rfl

theorem run_len {self : Tag} : ((len self : Reader N ε Nat).run : M (World R N) ε _) = Borrow.len self :=
  run_call fun u => by
    simp only [run_bind, run_read, run_get, run_pure]

theorem run_asRefBytes {self : Tag} :
    ((asRefBytes self : Reader N ε _).run : M (World R N) ε _) = Borrow.asRefBytes self :=
  run_callRef fun u => by
    simp only [run_bind, run_retag, run_len, run_through, run_pure]

theorem run_asRefStr {self : Tag} :
    ((asRefStr self : Reader N ε _).run : M (World R N) ε _) = Borrow.asRefStr self :=
  run_callRef fun u => by
    simp only [run_bind, run_asRefBytes, run_read, run_through, run_pure]

theorem run_asStr {self : Tag} :
    ((asStr self : Reader N ε _).run : M (World R N) ε _) = Borrow.asStr self :=
  run_callRef fun _ => run_asRefStr

theorem run_lookText {self : Tag} :
    ((lookText self : Reader N ε _).run : M (World R N) ε _) = Borrow.look self := by
  simp only [lookText, run_bind, run_asStr, run_read, run_pure]
  rfl

theorem run_readBoundary {t : Tag} {lo n idx : Nat} :
    ((readBoundary t lo n idx : Reader N ε _).run : M (World R N) ε _) = Borrow.readBoundary t lo n idx :=
  run_pass fun u => by
    split
    · exact run_read
    · rfl

theorem run_reading {self : Tag} :
    ((reading self : Reader N ε _).run : M (World R N) ε _) = Borrow.reading self :=
  run_call fun u => by
    simp only [run_bind, run_asStr, run_pass fun _ => run_read]

theorem run_index {self : Tag} {i : IdxU8} :
    ((index self i : Reader N ε _).run : M (World R N) ε _) = Borrow.index self i := by
  unfold index Borrow.index Borrow.indexRef
  rw [mbind_assoc, run_bind, run_call (body' := fun self => do
    let (a, n) ← Borrow.asStr self
    let s ← Borrow.get
    let b ← M.lift s.asStr
    let (a, x, y, t) ← Borrow.passShared a 0 n fun a =>
      match i.toUsize.resolve b.length with
      | none => M.lift .panic
      | some (x, y) => do
        Borrow.readBoundary a 0 n x
        Borrow.readBoundary a 0 n y
        let t ← M.lift (Str.index b x y)
        let a ← Borrow.retagShared a x y false
        pure (a, x, y, t)
    let a ← Borrow.retagShared a x y false
    pure (a, x, y, t)) fun u => ?_]
  · congr 1
    funext ⟨a, x, y, t⟩
    simp only [run_bind, run_retag, run_read, run_pure, mbind_assoc]
    rfl
  · simp only [run_bind, run_asStr, run_get, run_lift, run_retag, run_pure]
    congr 1; funext ⟨a, n⟩
    congr 1; funext s
    congr 1; funext b
    rw [run_pass fun a => ?_]
    cases i.toUsize.resolve b.length with
    | none => rfl
    | some q => simp only [run_bind, run_readBoundary, run_lift, run_retag, run_pure]

theorem run_out [Verif.Kind ε] {p : Reader N ε α} {out : α → Out} :
    ((call p out).run : M (World R N) Failure Out) = Borrow.call p.run out := by
  simp only [call, run_bind, run_mapErr, run_pure]
  rfl

theorem run_query [Verif.Kind ε] {p : Reader N ε Unit} {m : M (World R N) ε Unit} {f : ArrayString N → Res ε α}
    {out : α → Out} (h : p.run = m) :
    ((query p f out).run : M (World R N) Failure Out) = Borrow.query m f out := by
  simp only [query, run_out, run_bind, run_get, run_lift, h]
  rfl

theorem run_discard {p : Reader N ε α} {m : M (World R N) ε α} (h : p.run = m) :
    ((discard p).run : M (World R N) ε Unit) = discard m := by
  subst h
  show (p.bind _).run = _
  exact run_bind

theorem run_exec {self arg : Tag} {op : Op} (hop : op.shared = true) :
    ∃ p : Reader N Failure Out, exec self arg op = some p ∧
      ∀ R : Rules, (p.run : M (World R N) Failure Out) = Borrow.exec self arg op := by
  cases op <;> first | (cases hop; done) | skip
  case index i => exact ⟨_, rfl, fun _ => by rw [run_out, run_index]; rfl⟩
  case asStr => exact ⟨_, rfl, fun _ => run_query (run_discard run_lookText)⟩
  case asBytes => exact ⟨_, rfl, fun _ => run_query (by simp only [run_bind, run_asRefBytes, run_read])⟩
  case display => exact ⟨_, rfl, fun _ => run_query run_reading⟩
  case len => exact ⟨_, rfl, fun _ => run_query (run_discard run_len)⟩
  case isEmpty => exact ⟨_, rfl, fun _ => run_query (run_discard run_asRefStr)⟩
  case capacity => exact ⟨_, rfl, fun _ => run_query run_pure⟩
  case eqStr t =>
    exact ⟨_, rfl, fun _ => run_query (run_pass fun u => by simp only [run_bind, run_reading, run_read])⟩
  case hash => exact ⟨_, rfl, fun _ => run_query run_reading⟩

/-! ## Byte by byte -/

theorem touch_ok {lo hi : Nat} {f : R.St → Option R.St} {w : World R N}
    (h : ∀ l, lo ≤ l → l < hi → (f (w.mem l)).isSome) :
    (touch lo hi f : M (World R N) ε Unit) w = (.ok (), { w with
      mem := fun l => if lo ≤ l ∧ l < hi then (f (w.mem l)).getD (w.mem l) else w.mem l }) := by
  unfold touch
  rw [if_pos]
  rw [List.all_eq_true]
  intro l hl
  rw [List.mem_range'_1] at hl
  exact h l hl.1 (by omega)

theorem touch_some {lo hi : Nat} {f : R.St → Option R.St} {w : World R N}
    (h : ((touch lo hi f : M (World R N) ε Unit) w).1 ≠ .ub) : ∀ l, lo ≤ l → l < hi → (f (w.mem l)).isSome := by
  unfold touch at h
  split at h
  next hf =>
    intro l h1 h2
    exact List.all_eq_true.1 hf l (by rw [List.mem_range'_1]; omega)
  next => exact absurd rfl h

theorem run_readEach {t : Tag} {lo n : Nat} {p : Reader N ε α} {w : World R N}
    (h : ∀ l, lo ≤ l → l < lo + n → (R.read t (w.mem l)).isSome) :
    (readEach t lo n p).run w = p.run { w with
      mem := fun l => if lo ≤ l ∧ l < lo + n then (R.read t (w.mem l)).getD (w.mem l) else w.mem l } := by
  induction n generalizing lo w with
  | zero =>
    unfold readEach
    congr 1
    have : (fun l => if lo ≤ l ∧ l < lo + 0 then (R.read t (w.mem l)).getD (w.mem l) else w.mem l) = w.mem := by
      funext l
      rw [if_neg (by omega)]
    rw [this]
  | succ n ih =>
    unfold readEach
    rw [run, bind_ok (m := Borrow.readAt t lo (lo + 1)) (touch_ok fun l h1 h2 => h l h1 (by omega)), ih fun l h1 h2 => ?_]
    · congr 2
      funext l
      by_cases h1 : l = lo
      · subst h1
        rw [if_neg (by omega), if_pos (by omega)]
        exact if_pos (by omega)
      · by_cases h2 : lo ≤ l ∧ l < lo + (n + 1)
        · simp only [if_neg (show ¬ (lo ≤ l ∧ l < lo + 1) by omega)]
          rw [if_pos (by omega), if_pos h2]
        · simp only [if_neg (show ¬ (lo ≤ l ∧ l < lo + 1) by omega)]
          rw [if_neg (by omega), if_neg h2]
    · simp only [if_neg (show ¬ (lo ≤ l ∧ l < lo + 1) by omega)]
      exact h l (by omega) (by omega)

theorem ne_ub_bind {m : M (World R N) ε α} {f : α → M (World R N) ε β} {w : World R N}
    (h : ((m >>= f) w).1 ≠ .ub) : (m w).1 ≠ .ub := by
  intro h'
  apply h
  show (M.bind m f w).1 = .ub
  unfold M.bind
  generalize m w = x at *
  rcases x with ⟨r, w'⟩
  simp only at h'
  subst h'
  rfl

theorem run_bytewise {p : Reader N ε α} {w : World R N} (h : (p.run w).1 ≠ .ub) : p.bytewise.run w = p.run w := by
  induction p generalizing w with
  | done r => rfl
  | retag t lo hi protect k ih =>
    have h1 := ne_ub_bind h
    rcases retag_ends (ε := ε) (t := t) (lo := lo) (hi := hi) (p := protect) w with ⟨u, hu⟩ | hu
    · have e : (Borrow.retagShared t lo hi protect : M (World R N) ε Tag) w =
          (.ok u, ((Borrow.retagShared t lo hi protect : M (World R N) ε Tag) w).2) := by rw [← hu]
      rw [run, bind_ok e] at h ⊢
      rw [bytewise, run, bind_ok e]
      exact ih u h
    · exact absurd hu h1
  | read t lo hi k ih =>
    have h1 := touch_some (ne_ub_bind h)
    have e := touch_ok (ε := ε) h1
    rw [run, bind_ok (m := Borrow.readAt t lo hi) e] at h ⊢
    rw [bytewise]
    by_cases hl : lo ≤ hi
    · rw [run_readEach fun l h2 h3 => h1 l h2 (by omega)]
      rw [Nat.add_sub_of_le hl]
      exact ih h
    · rw [Nat.sub_eq_zero_of_le (by omega)]
      rw [readEach]
      have : (fun l => if lo ≤ l ∧ l < hi then (R.read t (w.mem l)).getD (w.mem l) else w.mem l) = w.mem := by
        funext l
        rw [if_neg (by omega)]
      rw [this] at h ⊢
      exact ih h
  | release t lo hi k ih =>
    have h1 := touch_some (ne_ub_bind h)
    have e := touch_ok (ε := ε) h1
    rw [run, bind_ok (m := Borrow.release t lo hi) e] at h ⊢
    rw [bytewise, run, bind_ok (m := Borrow.release t lo hi) e]
    exact ih h
  | look k ih =>
    rw [run, bind_ok (m := Borrow.get) (w := w) rfl] at h ⊢
    rw [bytewise, run, bind_ok (m := Borrow.get) (w := w) rfl]
    exact ih _ h

end Reader

end Verif.Borrow
