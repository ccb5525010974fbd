import Verif.Model.MachineMany
import Verif.Proofs.MachineMethods
import Verif.Proofs.Order

/-! The functions that only read, for strings at any address: they give what the texts give, and leave the bytes
and the references alone. -/

namespace Verif.Machine
open Spec
open Borrow (Rules Tag World Laws Inv Usable Covers Grows Ready settled_ok ins ins_grows ins_covers)

variable {R : Rules} {L : Laws R} {N : Nat} {ε α β : Type} {b : Nat → Tag} {B : Nat → R.St → Prop} {total : Nat}
  {g : Nat → UInt8} {T P : Nat → List Tag} {o n : Nat} {t self : Tag} {cs ds : List Char}

/-- The computation succeeds, leaves the bytes alone, and leaves all shared references usable. -/
def Reads (L : Laws R) (b : Nat → Tag) (B : Nat → R.St → Prop) (total : Nat) (g : Nat → UInt8)
    (m : M (Mem R N) ε α) (T P : Nat → List Tag) (Q : α → (Nat → List Tag) → Prop) : Prop :=
  ∀ s : Mem R N, s.bytes = g → Inv L b B total T P (abs s) →
    ∃ a s' T', m s = (.ok a, s') ∧ s'.bytes = g ∧ Inv L b B total T' P (abs s') ∧ Grows T T' ∧ Q a T'

theorem reads_pure {a : α} {Q : α → (Nat → List Tag) → Prop} (h : Q a T) :
    Reads L b B total g (pure a : M (Mem R N) ε α) T P Q :=
  fun s hs hi => ⟨a, s, T, rfl, hs, hi, .refl, h⟩

theorem reads_lift {a : α} {r : Res ε α} {Q : α → (Nat → List Tag) → Prop} (hr : r = .ok a) (h : Q a T) :
    Reads L b B total g (M.lift r : M (Mem R N) ε α) T P Q := by
  subst hr
  exact reads_pure h

theorem reads_bind {m : M (Mem R N) ε α} {f : α → M (Mem R N) ε β} {Q : α → (Nat → List Tag) → Prop}
    {Q' : β → (Nat → List Tag) → Prop} (h : Reads L b B total g m T P Q)
    (h' : ∀ a T', Grows T T' → Q a T' → Reads L b B total g (f a) T' P Q') :
    Reads L b B total g (m >>= f) T P Q' := by
  intro s hs hi
  obtain ⟨a, s', T', h1, h2, h3, h4, h5⟩ := h s hs hi
  obtain ⟨a', s'', T'', g1, g2, g3, g4, g5⟩ := h' a T' h4 h5 s' h2 h3
  exact ⟨a', s'', T'', by rw [Borrow.bind_ok h1, g1], g2, g3, h4.trans g4, g5⟩

theorem reads_mono {m : M (Mem R N) ε α} {Q Q' : α → (Nat → List Tag) → Prop}
    (h : Reads L b B total g m T P Q) (h' : ∀ a T', Q a T' → Q' a T') : Reads L b B total g m T P Q' := by
  intro s hs hi
  obtain ⟨a, s', T', h1, h2, h3, h4, h5⟩ := h s hs hi
  exact ⟨a, s', T', h1, h2, h3, h4, h' a T' h5⟩

/-- A step that uses tags only does here what it does on the string. -/
theorem same_run {m : M (Mem R N) ε α} {n : M (World R N) ε α} {s : Mem R N} {a : α} {w' : World R N}
    (h : Sim 0 [] s.bytes m n (Same s.bytes) fun _ => True) (e : n (abs s) = (.ok a, w')) :
    ∃ s', m s = (.ok a, s') ∧ abs s' = w' ∧ s'.bytes = s.bytes := by
  obtain ⟨r', s', h1, h2, h3, h4⟩ := h s rfl .nil _ _ e settled_ok
  cases r' with
  | ok x => exact ⟨s', by rw [h1, h4.1], h2, h4.2⟩
  | _ => exact h4.elim

theorem reads_load {lo : Nat} (ht : Usable b T t lo (lo + n)) (hh : lo + n ≤ total) :
    Reads L b B total g (load t lo n : M (Mem R N) ε Bytes) T P fun x _ => x = sliceOf g lo n := by
  intro s hs hi
  obtain ⟨_, w', T', h1, -, h3, h4, -⟩ := Borrow.runs_read (ε := ε) ht hh (abs s) rfl hi
  obtain ⟨r', s', k1, k2, -, k4⟩ := sim_load (K := 0) (b := []) (E := fun _ => True) (ε := ε) (k := n) rfl
    s hs .nil _ _ h1 settled_ok
  cases r' with
  | ok x => exact ⟨x, s', T', k1, k4.2, by rw [k2]; exact h3, h4, k4.1⟩
  | _ => exact k4.elim

theorem reads_shared {lo hi : Nat} (ht : Usable b T t lo hi) (hh : hi ≤ total) :
    Reads L b B total g (retagShared t lo hi false : M (Mem R N) ε Tag) T P fun u T' => Covers T' u lo hi := by
  intro s hs hi'
  obtain ⟨u, w', h1, -, h3⟩ := Borrow.shared_run (ε := ε) (p := false) hi' ht hh
  obtain ⟨s', k1, k2, k3⟩ := same_run sim_retagShared h1
  exact ⟨u, s', _, k1, k3.trans hs, by rw [k2]; exact h3, ins_grows, ins_covers⟩

theorem reads_pass {lo hi : Nat} {body : Tag → M (Mem R N) ε α} {Q : α → (Nat → List Tag) → Prop}
    (ht : Usable b T t lo hi) (hh : hi ≤ total)
    (hb : ∀ u T' P', Grows T T' → Covers T' u lo hi → Reads L b B total g (body u) T' P' Q) :
    Reads L b B total g (passShared t lo hi body) T P Q := by
  intro s hs hi'
  obtain ⟨u, w1, h1, -, h3⟩ := Borrow.shared_run (ε := ε) (p := true) hi' ht hh
  obtain ⟨s1, k1, k2, k3⟩ := same_run sim_retagShared h1
  obtain ⟨a, s2, T2, g1, g2, g3, g4, g5⟩ := hb u _ _ ins_grows ins_covers s1 (k3.trans hs) (by rw [k2]; exact h3)
  obtain ⟨w3, e1, -, e3⟩ := Inv.release (ε := Empty) g3 hh (ins_covers.grow g4)
  obtain ⟨s3, d1, d2, d3⟩ := same_run sim_release e1
  refine ⟨a, s3, T2, ?_, d3.trans g2, by rw [d2]; exact e3, ins_grows.trans g4, g5⟩
  unfold passShared
  rw [Borrow.bind_ok k1]
  unfold protecting
  rw [g1]
  simp only [d1]

theorem reads_through {lo hi lo' hi' : Nat} (ht : Usable b T t lo hi) (hh : hi ≤ total) (h1 : lo ≤ lo') (h2 : hi' ≤ hi) :
    Reads L b B total g (through t lo hi lo' hi' : M (Mem R N) ε Tag) T P fun u T' => Covers T' u lo' hi' :=
  reads_bind (reads_pass ht hh fun _ _ _ _ hc => reads_shared (hc.sub h1 h2).usable (by omega))
    fun _ _ _ hc => reads_shared hc.usable (by omega)

namespace At

theorem reads_call {body : Tag → M (Mem R N) ε α} {Q : α → (Nat → List Tag) → Prop}
    (hself : Usable b T self o (o + N + 1)) (hh : o + N + 1 ≤ total)
    (hb : ∀ u T' P', Grows T T' → Covers T' u o (o + N + 1) → Reads L b B total g (body u) T' P' Q) :
    Reads L b B total g (callShared o self body) T P Q :=
  reads_bind (reads_shared hself hh) fun _ _ hg hc =>
    reads_pass hc.usable hh fun u T' P' hg' hc' => hb u T' P' (hg.trans hg') hc'

theorem reads_callBoth {o' : Nat} {other : Tag} {body : Tag → Tag → M (Mem R N) ε α}
    {Q : α → (Nat → List Tag) → Prop}
    (hself : Usable b T self o (o + N + 1)) (hh : o + N + 1 ≤ total)
    (hother : Usable b T other o' (o' + N + 1)) (hh' : o' + N + 1 ≤ total)
    (hb : ∀ u v T' P', Covers T' u o (o + N + 1) → Covers T' v o' (o' + N + 1) →
      Reads L b B total g (body u v) T' P' Q) :
    Reads L b B total g (callBoth o self o' other body) T P Q :=
  reads_bind (reads_shared hself hh) fun _ _ g1 c1 =>
  reads_bind (reads_shared (hother.grow g1) hh') fun _ _ g2 c2 =>
  reads_pass (c1.grow g2).usable hh fun _ _ _ g3 c3 =>
  reads_pass (c2.grow g3).usable hh' fun _ _ _ g4 c4 => hb _ _ _ _ (c3.grow g4) c4

/-- A reference to the text at `o`, `n` bytes long. -/
def RefAt (o n : Nat) (r : Tag × Nat) (T : Nat → List Tag) : Prop := r.2 = n ∧ Covers T r.1 o (o + n)

theorem reads_callRef {body : Tag → M (Mem R N) ε (Tag × Nat)}
    (hself : Usable b T self o (o + N + 1)) (hh : o + N + 1 ≤ total) (hn : n ≤ N)
    (hb : ∀ u T' P', Grows T T' → Covers T' u o (o + N + 1) → Reads L b B total g (body u) T' P' (RefAt o n)) :
    Reads L b B total g (callRef o self body) T P (RefAt o n) :=
  reads_bind (reads_call hself hh hb) fun r _ _ hc => by
    obtain ⟨a, k⟩ := r
    obtain ⟨rfl, hc⟩ := hc
    exact reads_bind (reads_shared hc.usable (by dsimp only at hn ⊢; omega)) fun _ _ _ hc => reads_pure ⟨rfl, hc⟩

/-- The bytes at `o ..= o + N` are a string with the text `cs`. -/
structure Stored (N : Nat) (g : Nat → UInt8) (o : Nat) (cs : List Char) : Prop where
  fits : byteLen cs ≤ N
  size : (g (o + N)).toNat = byteLen cs
  text : ∀ i, i < byteLen cs → (utf8 cs)[i]? = some (g (o + i))

theorem Stored.slice (h : Stored N g o cs) : sliceOf g o (byteLen cs) = utf8 cs := by
  refine List.ext_getElem? fun i => ?_
  rw [sliceOf_getElem?]
  split
  · next hi => rw [h.text i hi]
  · rw [List.getElem?_eq_none (by rw [length_utf8]; omega)]

/-- The value of the string. -/
theorem Stored.holds (h : Stored N g o cs) : Holds (⟨sliceOf g o N, g (o + N)⟩ : ArrayString N) cs := by
  refine ⟨sliceOf_length, show (g (o + N)).toNat ≤ N by rw [h.size]; exact h.fits, ?_⟩
  show (sliceOf g o N).take (g (o + N)).toNat = utf8 cs
  rw [h.size, ← h.slice]
  refine List.ext_getElem? fun i => ?_
  rw [List.getElem?_take, sliceOf_getElem?, sliceOf_getElem?]
  have := h.fits
  split
  · rw [if_pos (by omega)]
  · rfl

theorem reads_len (hself : Usable b T self o (o + N + 1)) (hh : o + N + 1 ≤ total) :
    Reads L b B total g (len o self : M (Mem R N) ε Nat) T P fun n _ => n = (g (o + N)).toNat :=
  reads_call hself hh fun _ _ _ _ hc =>
    reads_bind (Q := fun x _ => x = g (o + N))
      (reads_bind (reads_load (hc.sub (by omega) (by omega)).usable (by omega)) fun _ _ _ hx => reads_pure (by subst hx; rfl))
      fun _ _ _ hx => reads_pure (by rw [hx])

theorem reads_asRefBytes (hg : Stored N g o cs) (hself : Usable b T self o (o + N + 1)) (hh : o + N + 1 ≤ total) :
    Reads L b B total g (asRefBytes o self : M (Mem R N) ε (Tag × Nat)) T P (RefAt o (byteLen cs)) :=
  reads_callRef hself hh hg.fits fun u T' P' _ hc =>
    reads_bind (reads_len hc.usable hh) fun n _ g1 e1 =>
    reads_bind (Q := fun _ _ => True)
      (reads_lift (a := ()) (by have := hg.fits; have := hg.size; simp [debugAssert, e1]; omega) trivial) fun _ _ g1' _ =>
    reads_bind (reads_shared ((hc.grow (g1.trans g1')).sub (by omega) (by omega)).usable (by omega)) fun _ _ g2 c2 =>
    reads_bind (reads_through c2.usable (by omega) (by omega) (by omega)) fun _ _ g3 c3 =>
    reads_bind (reads_len ((hc.grow (g1.trans g1')).grow (g2.trans g3)).usable hh) fun n _ g4 e4 => by
      rw [hg.size] at e4
      subst e4
      have := hg.fits
      exact reads_bind (Q := fun _ _ => True) (reads_lift (a := ()) (by rw [if_pos this]) trivial) fun _ _ g5 _ =>
        reads_bind (reads_through (c3.grow (g4.trans g5)).usable (by omega) (by omega) (by omega))
        fun _ _ _ c5 => reads_pure ⟨rfl, c5⟩

theorem reads_asRefStr (hg : Stored N g o cs) (hself : Usable b T self o (o + N + 1)) (hh : o + N + 1 ≤ total) :
    Reads L b B total g (asRefStr o self : M (Mem R N) ε (Tag × Nat)) T P (RefAt o (byteLen cs)) :=
  reads_callRef hself hh hg.fits fun u T' P' _ hc =>
    reads_bind (reads_asRefBytes hg hc.usable hh) fun r _ g1 c1 => by
      obtain ⟨a, n⟩ := r
      obtain ⟨e, c1⟩ := c1
      dsimp only at e c1
      subst e
      have := hg.fits
      refine reads_bind (reads_load c1.usable (by omega)) fun x _ g2 e2 => ?_
      rw [hg.slice] at e2
      subst e2
      exact reads_bind (Q := fun _ _ => True) (reads_lift (a := ()) (by simp [debugAssert]) trivial) fun _ _ g3 _ =>
        reads_bind (reads_asRefBytes hg (hc.grow ((g1.trans g2).trans g3)).usable hh) fun r _ g4 c4 => by
          obtain ⟨a, n⟩ := r
          obtain ⟨e, c4⟩ := c4
          dsimp only at e c4
          subst e
          exact reads_bind (Q := fun _ _ => True)
            (reads_lift (a := utf8 cs) (by simp [Str.fromUtf8Unchecked]) trivial) fun _ _ g5 _ =>
            reads_bind (reads_through (c4.grow g5).usable (by omega) (by omega) (by omega))
              fun _ _ _ c6 => reads_pure ⟨rfl, c6⟩

theorem reads_asStr (hg : Stored N g o cs) (hself : Usable b T self o (o + N + 1)) (hh : o + N + 1 ≤ total) :
    Reads L b B total g (asStr o self : M (Mem R N) ε (Tag × Nat)) T P (RefAt o (byteLen cs)) :=
  reads_callRef hself hh hg.fits fun _ _ _ _ hc => reads_asRefStr hg hc.usable hh

/-- `as_str`, and what is done with it. -/
theorem reads_text {f : Tag × Nat → M (Mem R N) ε α} {Q : α → (Nat → List Tag) → Prop} (hg : Stored N g o cs)
    (hself : Usable b T self o (o + N + 1)) (hh : o + N + 1 ≤ total)
    (hf : ∀ a T', Grows T T' → Covers T' a o (o + byteLen cs) → Reads L b B total g (f (a, byteLen cs)) T' P Q) :
    Reads L b B total g (asStr o self >>= f) T P Q :=
  reads_bind (reads_asStr hg hself hh) fun r _ g1 c1 => by
    obtain ⟨a, n⟩ := r
    obtain ⟨e, c1⟩ := c1
    dsimp only at e c1
    subst e
    exact hf a _ g1 c1

/-- `a.cmp(b)` looks at the shorter length, then at the lengths. -/
theorem cmp_min (x y : Bytes) :
    (Str.cmp (x.take (min x.length y.length)) (y.take (min x.length y.length))).then (compare x.length y.length) =
      Str.cmp x y := by
  induction x generalizing y with
  | nil =>
    cases y with
    | nil => rfl
    | cons c y => simp [Str.cmp, compare, compareOfLessAndEq]
  | cons a x ih =>
    cases y with
    | nil => simp [Str.cmp, compare, compareOfLessAndEq]
    | cons c y =>
      have := ih y
      simp only [List.length_cons, Nat.succ_min_succ, List.take_succ_cons, Str.cmp]
      split
      · rfl
      · split
        · rfl
        · rw [← this]
          congr 1
          simp [compare, compareOfLessAndEq]

variable {o' : Nat} {other : Tag}

theorem reads_eq (hg : Stored N g o cs) (hg' : Stored N g o' ds)
    (hself : Usable b T self o (o + N + 1)) (hh : o + N + 1 ≤ total)
    (hother : Usable b T other o' (o' + N + 1)) (hh' : o' + N + 1 ≤ total) :
    Reads L b B total g (eq o self o' other : M (Mem R N) ε Bool) T P fun r _ => r = decide (cs = ds) :=
  reads_callBoth hself hh hother hh' fun u v T' P' hu hv =>
    reads_text hg hu.usable hh fun a _ g1 c1 =>
    reads_text hg' (hv.grow g1).usable hh' fun c _ g2 c2 => by
      have := hg.fits
      have := hg'.fits
      refine reads_pass (c1.grow g2).usable (by omega) fun a _ _ g3 c3 =>
        reads_pass (c2.grow g3).usable (by omega) fun c _ _ g4 c4 => ?_
      split
      · next e =>
        refine reads_bind (reads_load (c3.grow g4).usable (by omega)) fun x _ g5 e5 =>
          reads_bind (reads_load ((c4.grow g5).sub (Nat.le_refl _) (by omega)).usable (by omega)) fun y _ g6 e6 => reads_pure ?_
        rw [hg.slice] at e5
        rw [e, hg'.slice] at e6
        subst e5 e6
        rw [Bool.eq_iff_iff, beq_iff_eq, decide_eq_true_iff]
        exact ⟨utf8_injective, fun h => h ▸ rfl⟩
      · next e =>
        refine reads_pure (decide_eq_false fun h => e ?_).symm
        rw [h]

theorem reads_ne (hg : Stored N g o cs) (hg' : Stored N g o' ds)
    (hself : Usable b T self o (o + N + 1)) (hh : o + N + 1 ≤ total)
    (hother : Usable b T other o' (o' + N + 1)) (hh' : o' + N + 1 ≤ total) :
    Reads L b B total g (ne o self o' other : M (Mem R N) ε Bool) T P fun r _ => r = decide (cs ≠ ds) :=
  reads_callBoth hself hh hother hh' fun _ _ _ _ hu hv =>
    reads_bind (reads_eq hg hg' hu.usable hh hv.usable hh') fun _ _ _ h => reads_pure (by subst h; simp)

theorem reads_cmp (hg : Stored N g o cs) (hg' : Stored N g o' ds)
    (hself : Usable b T self o (o + N + 1)) (hh : o + N + 1 ≤ total)
    (hother : Usable b T other o' (o' + N + 1)) (hh' : o' + N + 1 ≤ total) :
    Reads L b B total g (cmp o self o' other : M (Mem R N) ε Ordering) T P fun r _ => r = Spec.cmpText cs ds :=
  reads_callBoth hself hh hother hh' fun u v T' P' hu hv =>
    reads_text hg hu.usable hh fun a _ g1 c1 =>
    reads_text hg' (hv.grow g1).usable hh' fun c _ g2 c2 => by
      have := hg.fits
      have := hg'.fits
      refine reads_pass (c1.grow g2).usable (by omega) fun a _ _ g3 c3 =>
        reads_pass (c2.grow g3).usable (by omega) fun c _ _ g4 c4 =>
        reads_bind (reads_load ((c3.grow g4).sub (by omega) (by omega)).usable (by omega)) fun x _ g5 e5 =>
        reads_bind (reads_load ((c4.grow g5).sub (by omega) (by omega)).usable (by omega)) fun y _ g6 e6 =>
        reads_pure ?_
      have key : ∀ {o n k}, k ≤ n → sliceOf g o k = (sliceOf g o n).take k := by
        intro o n k hk
        refine List.ext_getElem? fun i => ?_
        rw [List.getElem?_take, sliceOf_getElem?, sliceOf_getElem?]
        split
        · rw [if_pos (by omega)]
        · rfl
      rw [key (Nat.min_le_left _ _), hg.slice] at e5
      rw [key (Nat.min_le_right _ _), hg'.slice] at e6
      subst e5 e6
      rw [← cmp_utf8, ← cmp_min (utf8 cs) (utf8 ds)]
      simp only [length_utf8]

theorem reads_partialCmp (hg : Stored N g o cs) (hg' : Stored N g o' ds)
    (hself : Usable b T self o (o + N + 1)) (hh : o + N + 1 ≤ total)
    (hother : Usable b T other o' (o' + N + 1)) (hh' : o' + N + 1 ≤ total) :
    Reads L b B total g (partialCmp o self o' other : M (Mem R N) ε (Option Ordering)) T P
      fun r _ => r = some (Spec.cmpText cs ds) :=
  reads_callBoth hself hh hother hh' fun _ _ _ _ hu hv =>
    reads_bind (reads_cmp hg hg' hu.usable hh hv.usable hh') fun _ _ _ h => reads_pure (by rw [h])

theorem reads_compared {yes : Option Ordering → Bool} (hg : Stored N g o cs) (hg' : Stored N g o' ds)
    (hself : Usable b T self o (o + N + 1)) (hh : o + N + 1 ≤ total)
    (hother : Usable b T other o' (o' + N + 1)) (hh' : o' + N + 1 ≤ total) :
    Reads L b B total g (compared yes o self o' other : M (Mem R N) ε Bool) T P
      fun r _ => r = yes (some (Spec.cmpText cs ds)) :=
  reads_callBoth hself hh hother hh' fun _ _ _ _ hu hv =>
    reads_bind (reads_partialCmp hg hg' hu.usable hh hv.usable hh') fun _ _ _ h => reads_pure (by rw [h])

theorem reads_copy (hself : Usable b T self o (o + N + 1)) (hh : o + N + 1 ≤ total) :
    Reads L b B total g (copy o self : M (Mem R N) ε (ArrayString N)) T P
      fun r _ => r = ⟨sliceOf g o N, g (o + N)⟩ :=
  reads_bind (reads_load hself hh) fun x _ _ hx => reads_pure (by
    subst hx
    congr 1
    · refine List.ext_getElem? fun i => ?_
      rw [List.getElem?_take, sliceOf_getElem?, sliceOf_getElem?]
      split
      · rw [if_pos (by omega)]
      · rfl
    · rw [List.headD_eq_head?_getD, List.head?_drop, sliceOf_getElem?, if_pos (Nat.lt_succ_self _)]
      rfl)

theorem reads_clone (hself : Usable b T self o (o + N + 1)) (hh : o + N + 1 ≤ total) :
    Reads L b B total g (clone o self : M (Mem R N) ε (ArrayString N)) T P
      fun r _ => r = ⟨sliceOf g o N, g (o + N)⟩ :=
  reads_call hself hh fun _ _ _ _ hc => reads_copy hc.usable hh

theorem reads_debug (hg : Stored N g o cs) (hself : Usable b T self o (o + N + 1)) (hh : o + N + 1 ≤ total) :
    Reads L b B total g (debug o self : M (Mem R N) ε (Bytes × UInt8)) T P
      fun r _ => r.1 = utf8 cs ∧ r.2.toNat = byteLen cs :=
  reads_call hself hh fun _ _ _ _ hc =>
    reads_text hg hc.usable hh fun a _ g1 c1 => by
      have := hg.fits
      refine reads_bind (reads_pass c1.usable (by omega) fun _ _ _ _ c2 => reads_load c2.usable (by omega))
        fun x _ g2 e2 => ?_
      refine reads_bind (reads_shared ((hc.grow (g1.trans g2)).sub (by omega) (by omega)).usable (by omega))
        fun z _ g3 c3 => ?_
      refine reads_bind (Q := fun x _ => x = g (o + N)) (reads_pass c3.usable (by omega) fun _ _ _ _ c4 =>
        reads_bind (reads_load c4.usable (by omega)) fun _ _ _ hx => reads_pure (by subst hx; rfl)) fun z _ g4 e4 => ?_
      rw [hg.slice] at e2
      exact reads_pure ⟨e2, by rw [e4, hg.size]⟩

theorem reads_serialize (hg : Stored N g o cs) (hself : Usable b T self o (o + N + 1)) (hh : o + N + 1 ≤ total) :
    Reads L b B total g (serialize o self : M (Mem R N) ε Bytes) T P fun r _ => r = utf8 cs :=
  reads_call hself hh fun _ _ _ _ hc =>
    reads_text hg hc.usable hh fun a _ g1 c1 => by
      have := hg.fits
      refine reads_pass c1.usable (by omega) fun _ _ _ _ c2 => ?_
      rw [← hg.slice]
      exact reads_load c2.usable (by omega)

theorem reads_toSqlRef (hg : Stored N g o cs) (hself : Usable b T self o (o + N + 1)) (hh : o + N + 1 ≤ total) :
    Reads L b B total g (toSqlRef o self : M (Mem R N) ε (Tag × Nat)) T P (RefAt o (byteLen cs)) :=
  have := hg.fits
  reads_callRef hself hh hg.fits fun _ _ _ _ hc =>
    reads_text hg hc.usable hh fun a _ g1 c1 =>
      reads_bind (reads_through c1.usable (by omega) (by omega) (by omega)) fun _ _ _ c2 => reads_pure ⟨rfl, c2⟩

/-- A reference to the text, and a look at it. -/
theorem reads_refAt {m : M (Mem R N) ε (Tag × Nat)} (hg : Stored N g o cs) (hh : o + N + 1 ≤ total)
    (h : Reads L b B total g m T P (RefAt o (byteLen cs))) :
    Reads L b B total g (m >>= fun (a, n) => load a o n) T P fun r _ => r = utf8 cs :=
  reads_bind h fun r _ _ hc => by
    have := hg.fits
    obtain ⟨a, k⟩ := r
    obtain ⟨rfl, hc⟩ := hc
    rw [← hg.slice]
    exact reads_load hc.usable (by omega)

theorem reads_toSql (hg : Stored N g o cs) (hself : Usable b T self o (o + N + 1)) (hh : o + N + 1 ≤ total) :
    Reads L b B total g (toSql o self : M (Mem R N) ε Bytes) T P fun r _ => r = utf8 cs :=
  reads_refAt hg hh (reads_toSqlRef hg hself hh)

end At

/-! ## Statements -/

variable {caller arg : Tag} {m : Mem R N}

/-- The references of the caller, as the beginning of `Inv`. -/
def start (N : Nat) (caller arg : Tag) (l : Nat) : Tag := if l ≤ N then caller else arg

def startOk (R : Rules) (N : Nat) (caller arg : Tag) (l : Nat) (st : R.St) : Prop :=
  if l ≤ N then (R.write caller st).isSome else (R.read arg st).isSome

theorem ready_inv (h : Ready L caller arg total (abs m)) :
    Inv L (start N caller arg) (startOk R N caller arg) total (fun _ => []) (fun _ => []) (abs m) := by
  intro l hl
  by_cases hlN : l ≤ N
  · obtain ⟨h1, h2⟩ := h.1 l hlN
    refine ⟨?_, h2⟩
    have : startOk R N caller arg l = fun st => ((R.write caller st).isSome : Prop) := by
      funext st; simp [startOk, hlN]
    simp only [this, start, if_pos hlN]
    exact L.side_start L.stable_root h1
  · obtain ⟨h1, h2⟩ := h.2 l (by omega) hl
    refine ⟨?_, h2⟩
    have : startOk R N caller arg l = fun st => ((R.read arg st).isSome : Prop) := by
      funext st; simp [startOk, hlN]
    simp only [this, start, if_neg hlN]
    exact L.side_start L.stable_read h1

theorem ready_of_inv (hN : N < total) (h : Inv L (start N caller arg) (startOk R N caller arg) total T (fun _ => []) (abs m)) :
    Ready L caller arg total (abs m) := by
  constructor
  · intro l hl
    obtain ⟨h1, h2⟩ := h l (by omega)
    have := L.side_end h1
    simp only [startOk, if_pos hl] at this
    exact ⟨this, h2⟩
  · intro l hl hl'
    obtain ⟨h1, h2⟩ := h l hl'
    have := L.side_end h1
    simp only [startOk, if_neg (Nat.not_le.2 hl)] at this
    exact ⟨this, h2⟩

/-- From references that may be used, a computation that only reads. -/
theorem ready_run {x : M (Mem R N) ε α} {Q : α → Prop} (hN : N < total) (h : Ready L caller arg total (abs m))
    (hx : Reads L (start N caller arg) (startOk R N caller arg) total m.bytes x (fun _ => []) (fun _ => []) fun a _ => Q a) :
    ∃ a m', x m = (.ok a, m') ∧ m'.bytes = m.bytes ∧ Ready L caller arg total (abs m') ∧ Q a := by
  obtain ⟨a, m', T', h1, h2, h3, _, h5⟩ := hx m rfl (ready_inv h)
  exact ⟨a, m', h1, h2, ready_of_inv hN h3, h5⟩

/-- The place is of a string. -/
def Place.Ok (N total : Nat) : Place → Prop
  | .own => True
  | .at o => N + 1 ≤ o ∧ o + N + 1 ≤ total

theorem usable_place {p : Place} (hp : Place.Ok N total p) (hN : N < total) :
    Usable (start N caller arg) (fun _ => []) (refTo caller arg p) (address p) (address p + N + 1) ∧
      address p + N + 1 ≤ total := by
  cases p with
  | own => exact ⟨fun l h1 h2 => .inl (by simp [refTo, start, address] at *; omega), by simp [address]; omega⟩
  | «at» o => exact ⟨fun l h1 h2 => .inl (by
      simp only [Place.Ok, address] at *
      simp only [refTo, start]; rw [if_neg (by omega)]), hp.2⟩

end Verif.Machine
