import Verif.Model.Mixed
import Verif.Props.Store
import Verif.Props.CacheString

/-! # The calls on variables of several types -/

namespace Verif
open Spec ArrayString

variable {ty : Nat → VarType} {ε α : Type}

/-- The type is one of the crate: the capacity is 1 to 255. -/
def ValidType : VarType → Prop
  | .array n => ValidCapacity n
  | .cache => True

/-- The value holds the text. -/
def HoldsVal : {t : VarType} → Val t → List Char → Prop
  | .array n, s, w => Holds (N := n) s w
  | .cache, c, w => Holds (CacheString.inner c) w

namespace HoldsVal

variable {t u : VarType} {v v' : Val t} {w w' : List Char}

theorem le (h : HoldsVal v w) : byteLen w ≤ t.capacity := by
  cases t with
  | array n => exact Holds.le h
  | cache => exact Holds.le (N := 63) h

theorem cast (e : t = u) (h : HoldsVal v w) : HoldsVal (e ▸ v : Val u) w := by subst e; exact h

theorem unique (h : HoldsVal v w) (h' : HoldsVal v w') : w = w' := by
  cases t with
  | array n => exact Holds.unique h h'
  | cache => exact Holds.unique (N := 63) h h'

theorem exec (ht : ValidType t) (op : Op) (hop : op.Ok) (h : HoldsVal v w) :
    (Val.exec op v).1 = (step t.capacity op w).1.toRes ∧ HoldsVal (Val.exec op v).2 (step t.capacity op w).2 := by
  cases t with
  | array n =>
    haveI : ValidCapacity n := ht
    exact exec_step op hop v w h
  | cache =>
    obtain ⟨s⟩ := v
    show (CacheString.exec op ⟨s⟩).1 = _ ∧ Holds (CacheString.exec op ⟨s⟩).2.inner _
    rw [C37_call]
    exact exec_step op hop s w h

theorem asStr (h : HoldsVal v w) : (v.asStr : Res ε Bytes) = .ok (utf8 w) := by
  cases t with
  | array n => exact Holds.asStr h
  | cache => exact Holds.asStr (N := 63) h

theorem eq (ht : ValidType t) (h : HoldsVal v w) (h' : HoldsVal v' w') :
    (Val.eq v v' : Res ε Bool) = .ok (decide (w = w')) := by
  cases t with
  | array n => exact (C28_eq _ _ _ _ h h').1
  | cache => exact (C28_eq (N := 63) _ _ _ _ h h').1

theorem cmp (ht : ValidType t) (h : HoldsVal v w) (h' : HoldsVal v' w') :
    (Val.cmp v v' : Res ε Ordering) = .ok (cmpText w w') := by
  cases t with
  | array n => exact (C30_cmp _ _ _ _ h h').1
  | cache => exact (C30_cmp (N := 63) _ _ _ _ h h').1

theorem clone (v : Val t) : v.clone = v := by cases t <;> rfl

theorem display {ω : Type} (sk : Sink ω) (o : FmtOpts) (h : HoldsVal v w) :
    v.display sk o = sk.writeStr (utf8 w) := by
  cases t with
  | array n => exact C32_display sk o _ _ h
  | cache => exact C32_display (N := 63) sk o _ _ h

theorem write_ok (ht : ValidType t) (h : HoldsVal v w) (hf : byteLen w + byteLen w' ≤ t.capacity) :
    ∃ v', (Val.sink (t := t)).writeStr (utf8 w') v = (.ok (), v') ∧ HoldsVal v' (w ++ w') := by
  cases t with
  | array n =>
    haveI : ValidCapacity n := ht
    exact (C31_write_str _ _ w' h).1 hf
  | cache =>
    obtain ⟨s, e, hs⟩ := (C31_write_str (N := 63) _ _ w' h).1 hf
    refine ⟨(⟨s⟩ : CacheString), ?_, hs⟩
    obtain ⟨s0⟩ := v
    simp only [Val.sink, CacheString.sink, CacheString.writeStr, CacheString.derefMut, e]; rfl

theorem write_err (ht : ValidType t) (h : HoldsVal v w) (hf : t.capacity < byteLen w + byteLen w') :
    (Val.sink (t := t)).writeStr (utf8 w') v = (.err {}, v) := by
  cases t with
  | array n =>
    haveI : ValidCapacity n := ht
    exact (C31_write_str _ _ w' h).2 hf
  | cache =>
    have e := (C31_write_str (N := 63) _ _ w' h).2 hf
    obtain ⟨s0⟩ := v
    simp only [Val.sink, CacheString.sink, CacheString.writeStr, CacheString.derefMut, e]; rfl

/-- `split_off` as a statement of the specification. -/
theorem splitOff (ht : ValidType t) (at_ : Nat) (h : HoldsVal v w) :
    (byteLen w < at_ → Val.splitOff at_ v = (.err .outOfBounds, v)) ∧
    (at_ ≤ byteLen w → cutAt w at_ = none → Val.splitOff at_ v = (.err .utf8, v)) ∧
    (∀ p q, cutAt w at_ = some (p, q) →
      ∃ v1 v2, Val.splitOff at_ v = (.ok v2, v1) ∧ HoldsVal v1 p ∧ HoldsVal v2 q) := by
  have key : ∀ {n : Nat} [ValidCapacity n] (s : ArrayString n), Holds s w →
      (byteLen w < at_ → ArrayString.splitOff at_ s = (.err .outOfBounds, s)) ∧
      (at_ ≤ byteLen w → cutAt w at_ = none → ArrayString.splitOff at_ s = (.err .utf8, s)) ∧
      (∀ p q, cutAt w at_ = some (p, q) →
        ∃ s1 s2, ArrayString.splitOff at_ s = (.ok s2, s1) ∧ Holds s1 p ∧ Holds s2 q) := by
    intro n _ s hs
    refine ⟨splitOff_oob hs, fun h1 h2 => splitOff_utf8 hs h1 (cutAt_none.1 h2), fun p q hc => ?_⟩
    obtain ⟨hpq, rfl⟩ := cutAt_some.1 hc
    obtain ⟨s1, s2, e, h1, h2⟩ := splitOff_ok ValidCapacity.le (hpq ▸ hs)
    exact ⟨s1, s2, e, h1, h2⟩
  cases t with
  | array n =>
    haveI : ValidCapacity n := ht
    exact key v h
  | cache =>
    obtain ⟨s⟩ := v
    obtain ⟨k1, k2, k3⟩ := key (n := 63) s h
    refine ⟨fun h1 => ?_, fun h1 h2 => ?_, fun p q hc => ?_⟩
    · simp [Val.splitOff, CacheString.splitOff, M.bind_apply, CacheString.derefMut, k1 h1]; rfl
    · simp [Val.splitOff, CacheString.splitOff, M.bind_apply, CacheString.derefMut, k2 h1 h2]; rfl
    · obtain ⟨s1, s2, e, h1, h2⟩ := k3 p q hc
      refine ⟨(⟨s1⟩ : CacheString), (⟨s2⟩ : CacheString), ?_, h1, h2⟩
      simp [Val.splitOff, CacheString.splitOff, M.bind_apply, CacheString.derefMut, e]; rfl

/-- `drain` as a statement of the specification. -/
theorem drain (ht : ValidType t) (r : RangeB) (h : HoldsVal v w) :
    (¬ (startOf r ≤ endOf r (byteLen w) ∧ endOf r (byteLen w) ≤ byteLen w) → Val.drain r v = (.err .outOfBounds, v)) ∧
    (startOf r ≤ endOf r (byteLen w) ∧ endOf r (byteLen w) ≤ byteLen w →
      cut2 w (startOf r) (endOf r (byteLen w)) = none → Val.drain r v = (.err .utf8, v)) ∧
    (∀ p m q, cut2 w (startOf r) (endOf r (byteLen w)) = some (p, m, q) →
      ∃ v1 d, Val.drain r v = (.ok d, v1) ∧ HoldsVal v1 (p ++ q) ∧ Holds d.inner m) := by
  have key : ∀ {n : Nat} [ValidCapacity n] (s : ArrayString n), Holds s w →
      (¬ (startOf r ≤ endOf r (byteLen w) ∧ endOf r (byteLen w) ≤ byteLen w) →
        ArrayString.drain r s = (.err .outOfBounds, s)) ∧
      (startOf r ≤ endOf r (byteLen w) ∧ endOf r (byteLen w) ≤ byteLen w →
        cut2 w (startOf r) (endOf r (byteLen w)) = none → ArrayString.drain r s = (.err .utf8, s)) ∧
      (∀ p m q, cut2 w (startOf r) (endOf r (byteLen w)) = some (p, m, q) →
        ∃ s1 d, ArrayString.drain r s = (.ok d, s1) ∧ Holds s1 (p ++ q) ∧ Holds d.inner m) := by
    intro n _ s hs
    obtain ⟨h1, h2, h3⟩ := C24_drain (ε := Error) s w r hs
    refine ⟨h1, fun hi hc => h2 hi fun hb => cut2_none.1 hc ⟨hi.1, hb.1, hb.2⟩, fun p m q hc => ?_⟩
    obtain ⟨hpq, ha, hb⟩ := cut2_some.1 hc
    obtain ⟨s', d, e, hs', _, hd⟩ := h3 p m q hpq ha hb
    exact ⟨s', d, e, hs', hd⟩
  cases t with
  | array n =>
    haveI : ValidCapacity n := ht
    exact key v h
  | cache =>
    obtain ⟨s⟩ := v
    obtain ⟨k1, k2, k3⟩ := key (n := 63) s h
    refine ⟨fun h1 => ?_, fun h1 h2 => ?_, fun p m q hc => ?_⟩
    · simp [Val.drain, CacheString.derefMut, k1 h1]; rfl
    · simp [Val.drain, CacheString.derefMut, k2 h1 h2]; rfl
    · obtain ⟨s1, d, e, h1, h2⟩ := k3 p m q hc
      refine ⟨(⟨s1⟩ : CacheString), d, ?_, h1, h2⟩
      simp [Val.drain, CacheString.derefMut, e]; rfl

/-- Collecting a `Drain` into a string of another capacity keeps what fits. -/
theorem collect_drain {N K : Nat} [ValidCapacity N] (hK : K ≤ 255) (w : List Char) (d : Drain N) (h : Holds d.inner w) :
    ∃ (s : ArrayString K) (d' : Drain N), (fromIterChars drainIter d : Res ε _) = .ok (s, d') ∧ Holds s (takeFit K w) := by
  have hyield : ∀ (u : List Char) (d : Drain N) (rest : List Char), Holds d.inner (u ++ rest) →
      ∃ d', Yields drainIter d u d' ∧ Holds d'.inner rest := by
    intro u
    induction u with
    | nil => intro d rest h; exact ⟨d, .nil _, h⟩
    | cons c u ih =>
      intro d rest h
      obtain ⟨d1, e, h1⟩ := drainIter_cons h
      obtain ⟨d2, hy, h2⟩ := ih d1 rest h1
      exact ⟨d2, .cons e hy, h2⟩
  rcases takeFit_split K w with ⟨h1, h2⟩ | ⟨c, post, h1, h2⟩
  · obtain ⟨d', hy, h'⟩ := hyield w d [] (by simpa using h)
    obtain ⟨s, e, hs⟩ := fromCharsTruncate_done (N := K) (ε := ε) hK hy (drainIter_nil h') h2
    exact ⟨s, d', e, by rw [h1]; exact hs⟩
  · obtain ⟨d', hy, h'⟩ := hyield (takeFit K w) d (c :: post) (by rw [← h1]; exact h)
    obtain ⟨d2, e2, -⟩ := drainIter_cons h'
    obtain ⟨s, e, hs⟩ := fromCharsTruncate_over (N := K) (ε := ε) hK hy e2 (byteLen_takeFit_le K w) h2
    exact ⟨s, d2, e, hs⟩

theorem collect {N : Nat} [ValidCapacity N] (ht : ValidType t) (w : List Char) (d : Drain N) (h : Holds d.inner w) :
    ∃ (v : Val t) (d' : Drain N), (Val.collect drainIter d : Res ε _) = .ok (v, d') ∧ HoldsVal v (takeFit t.capacity w) := by
  cases t with
  | array n =>
    haveI : ValidCapacity n := ht
    exact collect_drain ValidCapacity.le w d h
  | cache =>
    obtain ⟨s, d', e, hs⟩ := collect_drain (ε := ε) (K := 63) (by decide) w d h
    refine ⟨(⟨s⟩ : CacheString), d', ?_, hs⟩
    simp [Val.collect, CacheString.fromIterChars, e]; rfl

theorem _root_.Verif.ValidType.valid (ht : ValidType t) : ValidCapacity t.capacity := by
  cases t with
  | array n => exact ht
  | cache => exact inferInstanceAs (ValidCapacity 63)

end HoldsVal

/-! ## Assigning variables -/

namespace Vars

theorem assign_same (x : Vars ty) (i : Nat) (v : Val (ty i)) : x.assign i v i = v := by simp [assign]

theorem assign_ne {x : Vars ty} {i k : Nat} {v : Val (ty i)} (h : k ≠ i) : x.assign i v k = x k := by simp [assign, h]

theorem assign_self (x : Vars ty) (i : Nat) : x.assign i (x i) = x := by
  funext k
  by_cases h : k = i
  · subst h; exact assign_same x k _
  · exact assign_ne h

end Vars
end Verif
