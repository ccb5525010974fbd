import Verif.Model.History
import Verif.Props.Traits

/-! # Every call does to the string what `Spec.step` says -/

namespace Verif
open Spec ArrayString

variable {N : Nat} {ε α : Type} {s s' : ArrayString N} {cs : List Char}

/-! ## The driver -/

section driver
variable [Kind ε]

theorem call_ok {m : M (ArrayString N) ε α} {out : α → Out} {a : α} (h : m s = (.ok a, s')) :
    call m out s = (.ok (out a), s') := by simp [call, M.bind_apply, h]
theorem call_err {m : M (ArrayString N) ε α} {out : α → Out} {e : ε} (h : m s = (.err e, s')) :
    call m out s = (.err (Kind.kind e), s') := by simp [call, M.bind_apply, h]
theorem call_panic {m : M (ArrayString N) ε α} {out : α → Out} (h : m s = (.panic, s')) :
    call m out s = (.panic, s') := by simp [call, M.bind_apply, h, Res.mapErr]

theorem construct_ok {r : Res ε α} {get : α → ArrayString N} {a : α} (h : r = .ok a) :
    construct r get s = (.ok .unit, get a) := by simp [construct, M.bind_apply, h]
theorem construct_err {r : Res ε α} {get : α → ArrayString N} {e : ε} (h : r = .err e) :
    construct r get s = (.err (Kind.kind e), s) := by simp [construct, M.bind_apply, h]
theorem construct_panic {r : Res ε α} {get : α → ArrayString N} (h : r = .panic) :
    construct r get s = (.panic, s) := by simp [construct, M.bind_apply, h, Res.mapErr]

theorem query_ok {f : ArrayString N → Res ε α} {out : α → Out} {a : α} (h : f s = .ok a) :
    query f out s = (.ok (out a), s) := by simp [query, M.bind_apply, h]
theorem query_panic {f : ArrayString N → Res ε α} {out : α → Out} (h : f s = .panic) :
    query f out s = (.panic, s) := by simp [query, M.bind_apply, h, Res.mapErr]
end driver

/-- Outcome `x` of a call on `s` is as the specification's `a` says; unless the call returned
normally the string is exactly as it was. -/
def Sim (s : ArrayString N) (x : Res Failure Out × ArrayString N) (a : Answer × List Char) : Prop :=
  x.1 = a.1.toRes ∧ Holds x.2 a.2 ∧ ((∀ o, a.1 ≠ .returned o) → x.2 = s)

theorem Sim.ok {x : Res Failure Out × ArrayString N} {o : Out} {cs' : List Char} (hx : x = (.ok o, s'))
    (h : Holds s' cs') : Sim s x (.returned o, cs') := by
  subst hx; exact ⟨rfl, h, fun h => (h o rfl).elim⟩
theorem Sim.err {x : Res Failure Out × ArrayString N} {e : Failure} (hx : x = (.err e, s))
    (h : Holds s cs) : Sim s x (.failed e, cs) := by
  subst hx; exact ⟨rfl, h, fun _ => rfl⟩
theorem Sim.panic {x : Res Failure Out × ArrayString N} (hx : x = (.panic, s))
    (h : Holds s cs) : Sim s x (.panicked, cs) := by
  subst hx; exact ⟨rfl, h, fun _ => rfl⟩

/-! ## Scripts -/

theorem yields_script {β : Type} (f : α → β) (ps : List α) (k : Script α) :
    Yields scriptIter ((ps.map some ++ k).map (Option.map f)) (ps.map f) (k.map (Option.map f)) := by
  induction ps with
  | nil => exact .nil _
  | cons p ps ih => exact .cons rfl ih

/-- What gathering finds in a script of items `a` with answers `f a` and `g a`. -/
theorem gather_spec (f g : α → List Char) (n : Nat) (l : Script α) :
    ∃ (ps : List α) (k : Script α), l = ps.map some ++ k ∧
      (gather n (l.map (Option.map fun a => (f a, g a)))).1 = (ps.map f).flatten ∧
      byteLen (ps.map f).flatten ≤ n ∧
      (((gather n (l.map (Option.map fun a => (f a, g a)))).2 = .ended ∧ k = []) ∨
       ((gather n (l.map (Option.map fun a => (f a, g a)))).2 = .panicked ∧ ∃ r, k = none :: r) ∨
       (∃ a r, (gather n (l.map (Option.map fun a => (f a, g a)))).2 = .over (g a) ∧ k = some a :: r ∧
          n < byteLen (ps.map f).flatten + byteLen (f a))) := by
  induction l generalizing n with
  | nil => exact ⟨[], [], rfl, rfl, by simp, .inl ⟨rfl, rfl⟩⟩
  | cons a l ih =>
    cases a with
    | none => exact ⟨[], none :: l, rfl, rfl, by simp, .inr (.inl ⟨rfl, l, rfl⟩)⟩
    | some p =>
      by_cases h : byteLen (f p) ≤ n
      · obtain ⟨ps, k, rfl, h1, h2, h3⟩ := ih (n - byteLen (f p))
        generalize hL : List.map (Option.map fun a => (f a, g a)) (ps.map some ++ k) = L at *
        have e : gather n (List.map (Option.map fun a => (f a, g a)) (some p :: (ps.map some ++ k))) =
            (f p ++ (gather (n - byteLen (f p)) L).1, (gather (n - byteLen (f p)) L).2) := by
          rw [List.map_cons, hL]; simp only [Option.map_some]; rw [gather, if_pos h]
        rw [e]
        refine ⟨p :: ps, k, rfl, by simp [h1], by simp; omega, ?_⟩
        rcases h3 with h3 | h3 | ⟨v, r, e1, e2, e3⟩
        · exact .inl h3
        · exact .inr (.inl h3)
        · exact .inr (.inr ⟨v, r, e1, e2, by simp; omega⟩)
      · have e : gather n (List.map (Option.map fun a => (f a, g a)) (some p :: l)) = ([], .over (g p)) := by
          rw [List.map_cons]; simp only [Option.map_some]; rw [gather, if_neg h]
        rw [e]
        exact ⟨[], some p :: l, rfl, rfl, by simp, .inr (.inr ⟨p, l, rfl, rfl, by simp; omega⟩)⟩

theorem gatherAll_eq (n : Nat) (l : Script (List Char × List Char)) : gatherAll n l =
    match (gather n l).2 with
    | .ended => .ok (gather n l).1
    | .over _ => .error (.failed .outOfBounds)
    | .panicked => .error .panicked := by
  unfold gatherAll
  rcases gather n l with ⟨w, _ | _ | _⟩ <;> rfl

theorem gatherFit_eq (n : Nat) (l : Script (List Char × List Char)) : gatherFit n l =
    match (gather n l).2 with
    | .ended => .ok (gather n l).1
    | .over w' => .ok ((gather n l).1 ++ takeFit (n - byteLen (gather n l).1) w')
    | .panicked => .error .panicked := by
  unfold gatherFit
  rcases gather n l with ⟨w, _ | _ | _⟩ <;> rfl

theorem tryFromIterator_sim (hN : N ≤ 255) (hs : Holds s cs) (ws : Script (List Char)) :
    Sim s (construct (tryFromIterator scriptIter (ws.map (Option.map utf8))) Prod.fst s)
      (assign cs (gatherAll N (twice ws))) := by
  obtain ⟨ps, k, rfl, h1, h2, h3⟩ := gather_spec id id N ws
  have ht : twice (ps.map some ++ k) = (ps.map some ++ k).map (Option.map fun a => (id a, id a)) := rfl
  rw [gatherAll_eq, ht, h1]
  simp only [List.map_id] at h1 h2 h3 ⊢
  have hy := yields_script utf8 ps k
  rcases h3 with ⟨e, rfl⟩ | ⟨e, r, rfl⟩ | ⟨w, r, e, rfl, h4⟩ <;> rw [e]
  · obtain ⟨t, e2, ht⟩ := tryFromIterator_done (N := N) hN hy rfl h2
    exact Sim.ok (construct_ok e2) ht
  · exact Sim.panic (construct_panic (tryFromIterator_panic (N := N) hN hy rfl h2)) hs
  · exact Sim.err (construct_err (tryFromIterator_over (N := N) hN hy rfl h2 h4)) hs

/-- `from_iterator_truncate` over a script. -/
theorem fromIteratorTruncate_script (hN : N ≤ 255) (f g : α → List Char) (l : Script α) :
    match gatherFit N (l.map (Option.map fun a => (f a, g a))) with
    | .ok w => ∃ (t : ArrayString N) (k : Script AsRefTwice), (fromIteratorTruncate scriptIter
        (l.map (Option.map fun a => ⟨utf8 (f a), utf8 (g a)⟩)) : Res ε _) = .ok (t, k) ∧ Holds t w
    | .error a => a = .panicked ∧ (fromIteratorTruncate scriptIter
        (l.map (Option.map fun a => ⟨utf8 (f a), utf8 (g a)⟩)) : Res ε (ArrayString N × _)) = .panic := by
  obtain ⟨ps, k, rfl, h1, h2, h3⟩ := gather_spec f g N l
  rw [gatherFit_eq, h1]
  have hy := yields_script (fun a => (⟨utf8 (f a), utf8 (g a)⟩ : AsRefTwice)) ps k
  have hm : ps.map (fun a => (⟨utf8 (f a), utf8 (g a)⟩ : AsRefTwice)) =
      (ps.map fun a => (f a, utf8 (g a))).map fun p => ⟨utf8 p.1, p.2⟩ := by simp
  have hf : (ps.map fun a => (f a, utf8 (g a))).map Prod.fst = ps.map f := by simp
  rw [hm] at hy
  have h2' := h2; rw [← hf] at h2'
  rcases h3 with ⟨e, rfl⟩ | ⟨e, r, rfl⟩ | ⟨w, r, e, rfl, h4⟩ <;> rw [e]
  · obtain ⟨t, e2, ht⟩ := fromIteratorTruncate_done (N := N) (ε := ε) hN hy rfl h2'
    exact ⟨t, _, e2, hf ▸ ht⟩
  · exact ⟨rfl, fromIteratorTruncate_panic (N := N) (ε := ε) hN hy rfl h2'⟩
  · obtain ⟨t, e2, ht⟩ := fromIteratorTruncate_over (N := N) (ε := ε) hN hy rfl h2' (by rw [hf]; exact h4)
    exact ⟨t, _, e2, hf ▸ ht⟩

theorem fromIteratorTruncate_sim (hN : N ≤ 255) (hs : Holds s cs) (f g : α → List Char) (l : Script α) :
    Sim s (construct (ε := Error) (fromIteratorTruncate scriptIter
      (l.map (Option.map fun a => ⟨utf8 (f a), utf8 (g a)⟩))) Prod.fst s)
      (assign cs (gatherFit N (l.map (Option.map fun a => (f a, g a))))) := by
  have h := fromIteratorTruncate_script (N := N) (ε := Error) hN f g l
  revert h; rcases gatherFit N (l.map (Option.map fun a => (f a, g a))) with a | w <;> intro h
  · obtain ⟨rfl, e⟩ := h
    exact Sim.panic (construct_panic e) hs
  · obtain ⟨t, k, e, ht⟩ := h
    exact Sim.ok (construct_ok e) ht

theorem flatten_single (w : List Char) : (w.map fun c => [c]).flatten = w := by
  induction w with
  | nil => rfl
  | cons c w ih => simp [ih]

theorem map_optionMap_id (l : Script α) : l.map (Option.map id) = l := by simp

theorem tryFromChars_sim (hN : N ≤ 255) (hs : Holds s cs) (w : Script Char) :
    Sim s (construct (tryFromChars scriptIter w) Prod.fst s) (assign cs (gatherAll N (single w))) := by
  obtain ⟨ps, k, rfl, h1, h2, h3⟩ := gather_spec (fun c => [c]) (fun c => [c]) N w
  have ht : single (ps.map some ++ k) = (ps.map some ++ k).map (Option.map fun c => ([c], [c])) := rfl
  rw [gatherAll_eq, ht, h1]
  have hy := yields_script id ps k
  simp only [map_optionMap_id, List.map_id] at hy
  simp only [flatten_single] at h1 h2 h3 ⊢
  rcases h3 with ⟨e, rfl⟩ | ⟨e, r, rfl⟩ | ⟨c, r, e, rfl, h4⟩ <;> rw [e]
  · obtain ⟨t, e2, ht⟩ := tryFromChars_done (N := N) hN hy rfl h2
    exact Sim.ok (construct_ok e2) ht
  · exact Sim.panic (construct_panic (tryFromChars_panic (N := N) hN hy rfl h2)) hs
  · exact Sim.err (construct_err (tryFromChars_over (N := N) hN hy rfl h2 (by simpa using h4))) hs

theorem fromCharsTruncate_script (hN : N ≤ 255) (l : Script Char) :
    match gatherFit N (single l) with
    | .ok w => ∃ (t : ArrayString N) (k : Script Char), (fromCharsTruncate scriptIter l : Res ε _) = .ok (t, k) ∧
        Holds t w
    | .error a => a = .panicked ∧ (fromCharsTruncate scriptIter l : Res ε (ArrayString N × _)) = .panic := by
  obtain ⟨ps, k, rfl, h1, h2, h3⟩ := gather_spec (fun c => [c]) (fun c => [c]) N l
  have ht : single (ps.map some ++ k) = (ps.map some ++ k).map (Option.map fun c => ([c], [c])) := rfl
  rw [gatherFit_eq, ht, h1]
  have hy := yields_script id ps k
  simp only [map_optionMap_id, List.map_id] at hy
  simp only [flatten_single] at h1 h2 h3 ⊢
  rcases h3 with ⟨e, rfl⟩ | ⟨e, r, rfl⟩ | ⟨c, r, e, rfl, h4⟩ <;> rw [e]
  · obtain ⟨t, e2, ht⟩ := fromCharsTruncate_done (N := N) (ε := ε) hN hy rfl h2
    exact ⟨t, _, e2, ht⟩
  · exact ⟨rfl, fromCharsTruncate_panic (N := N) hN hy rfl h2⟩
  · have h4 : N < byteLen ps + c.utf8Size := by simpa using h4
    obtain ⟨t, e2, ht⟩ := fromCharsTruncate_over (N := N) (ε := ε) hN hy rfl h2 h4
    refine ⟨t, _, e2, ?_⟩
    simpa [takeFit, show ¬ c.utf8Size ≤ N - byteLen ps by omega] using ht

theorem fromCharsTruncate_sim (hN : N ≤ 255) (hs : Holds s cs) (l : Script Char) :
    Sim s (construct (ε := Error) (fromCharsTruncate scriptIter l) Prod.fst s)
      (assign cs (gatherFit N (single l))) := by
  have h := fromCharsTruncate_script (N := N) (ε := Error) hN l
  revert h; rcases gatherFit N (single l) with a | w <;> intro h
  · obtain ⟨rfl, e⟩ := h
    exact Sim.panic (construct_panic e) hs
  · obtain ⟨t, k, e, ht⟩ := h
    exact Sim.ok (construct_ok e) ht

/-! ## UTF-16 -/

theorem utf16Char_low {u : UInt16} (h : ¬ IsHigh u) (h' : ¬ IsLow u) :
    utf16Char (Char.ofNat u.toNat) = [u] := by
  have hu := u.toNat_lt
  unfold IsHigh IsLow at *
  have hc : (Char.ofNat u.toNat).toNat = u.toNat := toNat_ofNat_char (by omega)
  unfold utf16Char
  rw [hc, if_pos (by omega)]
  simp

theorem utf16Char_pair {u v : UInt16} (h : IsHigh u) (h' : IsLow v) :
    utf16Char (Char.ofNat (0x10000 + (u.toNat - 0xD800) * 1024 + (v.toNat - 0xDC00))) = [u, v] := by
  have hu := u.toNat_lt
  have hv := v.toNat_lt
  unfold IsHigh IsLow at *
  generalize hn : 0x10000 + (u.toNat - 0xD800) * 1024 + (v.toNat - 0xDC00) = n
  have hc : (Char.ofNat n).toNat = n := toNat_ofNat_char (by omega)
  unfold utf16Char
  rw [hc, if_neg (by omega)]
  have e1 : 0xD800 + (n - 0x10000) / 1024 = u.toNat := by omega
  have e2 : 0xDC00 + (n - 0x10000) % 1024 = v.toNat := by omega
  rw [e1, e2]; simp

theorem segment_segments (l : List UInt16) : Segments l (segment l) := by
  have lone : ∀ {v l}, ¬ IsLow v → segUnits (segment (v :: l)) = v :: l →
      ∀ w rest, segment (v :: l) = .lone w :: rest → ¬ IsLow w := by
    intro v l hv h w rest e
    rw [e] at h
    simp only [segUnits, List.flatMap_cons, Seg.units, List.singleton_append, List.cons.injEq] at h
    rw [h.1]; exact hv
  induction l using segment.induct with
  | case1 => exact ⟨rfl, trivial⟩
  | case2 u h =>
    rw [segment, if_pos h]
    exact ⟨rfl, h, by simp, trivial⟩
  | case3 u h =>
    rw [segment, if_neg h]
    rw [not_or] at h
    refine ⟨?_, trivial⟩
    simp [segUnits, Seg.units, utf16Char_low h.1 h.2]
  | case4 u v l h h' ih =>
    rw [segment, if_pos h, if_pos h']
    refine ⟨?_, ih.2⟩
    simp only [segUnits, List.flatMap_cons, Seg.units, utf16Char_pair h h']
    simpa [segUnits] using ih.1
  | case5 u v l h h' ih =>
    rw [segment, if_pos h, if_neg h']
    refine ⟨?_, .inl h, fun _ => lone h' ih.1, ih.2⟩
    simp only [segUnits, List.flatMap_cons, Seg.units]
    simpa [segUnits] using ih.1
  | case6 u v l h h' ih =>
    rw [segment, if_neg h, if_pos h']
    refine ⟨?_, .inr h', fun hh => absurd hh h, ih.2⟩
    simp only [segUnits, List.flatMap_cons, Seg.units]
    simpa [segUnits] using ih.1
  | case7 u v l h h' ih =>
    rw [segment, if_neg h, if_neg h']
    refine ⟨?_, ih.2⟩
    simp only [segUnits, List.flatMap_cons, Seg.units, utf16Char_low h h']
    simpa [segUnits] using ih.1

theorem allChars_iff (l : List UInt16) : allChars (segment l) = true ↔ ValidUtf16 l := by
  rw [validUtf16_iff (segment_segments l)]
  induction segment l with
  | nil => simp [allChars, leadingChars]
  | cons a l ih => cases a <;> simp [allChars, leadingChars, ih]

/-! ## Cutting -/

theorem cut2_some {a b : Nat} {p m q : List Char} :
    cut2 cs a b = some (p, m, q) ↔ SliceAt cs (a, b) p m q := by
  unfold cut2 SliceAt
  constructor
  · intro h
    split at h
    · cases h1 : cutAt cs b with
      | none => rw [h1] at h; cases h
      | some lq =>
        obtain ⟨l, q'⟩ := lq
        rw [h1] at h
        dsimp only at h
        cases h2 : cutAt l a with
        | none => rw [h2] at h; cases h
        | some pm =>
          obtain ⟨p', m'⟩ := pm
          rw [h2] at h
          cases h
          obtain ⟨rfl, hb⟩ := cutAt_some.1 h1
          obtain ⟨rfl, ha⟩ := cutAt_some.1 h2
          exact ⟨rfl, ha, hb⟩
    · cases h
  · rintro ⟨rfl, ha, hb⟩
    have hab : a ≤ b := by simp at ha hb; omega
    rw [if_pos hab, cutAt_some.2 ⟨rfl, hb⟩]
    dsimp only
    rw [cutAt_some.2 ⟨rfl, ha⟩]

theorem cut2_none {a b : Nat} : cut2 cs a b = none ↔ ¬ SliceOk cs (a, b) := by
  rw [sliceOk_iff]
  cases h : cut2 cs a b with
  | none =>
    simp only [true_iff]
    rintro ⟨p, m, q, h2⟩
    rw [cut2_some.2 h2] at h; cases h
  | some x =>
    obtain ⟨p, m, q⟩ := x
    simp only [reduceCtorEq, false_iff, Classical.not_not]
    exact ⟨p, m, q, cut2_some.1 h⟩

theorem onBytes_utf8 (e : Edit) (w : List Char) : e.onBytes (utf8 w) = utf8 (e.apply w) := by
  unfold Edit.onBytes; rw [chars_utf8]

/-! ## Each call -/

theorem insertAt_sim (hN : N ≤ 255) (hs : Holds s cs) (i : Nat) (w : List Char) :
    Sim s (call (tryInsertStr i (utf8 w)) (fun _ => .unit) s) (insertAt N i w cs) := by
  unfold insertAt
  split
  next h => exact Sim.err (call_err (tryInsertStr_oob hs h)) hs
  next h =>
  split
  next hw => subst hw; exact Sim.ok (call_ok (tryInsertStr_nil hs (by omega))) hs
  next hw =>
  split
  next h1 => exact Sim.err (call_err (tryInsertStr_big hs h1)) hs
  next h1 =>
  split
  next h2 =>
    exact Sim.err (call_err (tryInsertStr_utf8 hs (by omega) (cutAt_none.1 h2) hw (by omega))) hs
  next p q h2 =>
    obtain ⟨rfl, rfl⟩ := cutAt_some.1 h2
    split
    next h3 =>
      obtain ⟨s', e, hs'⟩ := tryInsertStr_ok hN (w := w) hs (by simp at h3; omega)
      exact Sim.ok (call_ok e) hs'
    next h3 =>
      exact Sim.err (call_err (tryInsertStr_full hN hs ⟨p, q, rfl, rfl⟩ (by omega))) hs

theorem extendChars_sim (hN : N ≤ 255) (hs : Holds s cs) (w : Script Char) :
    Sim s (exec (.extendChars w) s) (step N (.extendChars w) cs) := by
  have h := fromCharsTruncate_script (N := N) (ε := Error) hN w
  simp only [exec, step]
  revert h; rcases gatherFit N (single w) with a | w <;> intro h
  · obtain ⟨rfl, e⟩ := h
    exact Sim.panic (call_panic (extendChars_panic e)) hs
  · obtain ⟨t, k, e, ht⟩ := h
    obtain ⟨s', e', hs'⟩ := extendChars_of hN hs e ht
    exact Sim.ok (call_ok e') hs'

theorem extendStrs_sim (hN : N ≤ 255) (hs : Holds s cs) (w : Script (List Char)) :
    Sim s (exec (.extendStrs w) s) (step N (.extendStrs w) cs) := by
  have h := fromIteratorTruncate_script (N := N) (ε := Error) hN id id w
  have ht : twice w = w.map (Option.map fun a => (id a, id a)) := rfl
  simp only [exec, step, ht]
  simp only [id] at h ⊢
  revert h; rcases gatherFit N (w.map (Option.map fun a => (a, a))) with a | w <;> intro h
  · obtain ⟨rfl, e⟩ := h
    exact Sim.panic (call_panic (extendStrs_panic e)) hs
  · obtain ⟨t, k, e, ht⟩ := h
    obtain ⟨s', e', hs'⟩ := extendStrs_of hN hs e ht
    exact Sim.ok (call_ok e') hs'

theorem drain_sim [ValidCapacity N] (hs : Holds s cs) (r : RangeB) (es : List End) :
    Sim s (exec (.drain r es) s) (step N (.drain r es) cs) := by
  obtain ⟨h1, h2, h3⟩ := C24_drain (ε := Error) s cs r hs
  simp only [exec, step]
  split
  next hi =>
    split
    next p m q hc =>
      obtain ⟨rfl, ha, hb⟩ := cut2_some.1 hc
      obtain ⟨s', d, e, hs', _, hd⟩ := h3 p m q rfl ha hb
      obtain ⟨d', e2, hd', e3⟩ := C25_drain_deque (ε := Error) es d m hd
      refine Sim.ok (call_ok (a := ((takeEnds es m).1, utf8 (takeEnds es m).2)) ?_) hs'
      simp [M.bind_apply, e, M.onLocal, e2, e3]
    next hc =>
      have hn := cut2_none.1 hc
      refine Sim.err (call_err (e := Error.utf8) ?_) hs
      have : ¬ RangeBoundary r cs := fun hb => hn ⟨hi.1, hb.1, hb.2⟩
      simp [M.bind_apply, h2 hi this]
  next hi =>
    refine Sim.err (call_err (e := Error.outOfBounds) ?_) hs
    simp [M.bind_apply, h1 hi]

theorem splitOff_sim (hN : N ≤ 255) (hs : Holds s cs) (i : Nat) :
    Sim s (exec (.splitOff i) s) (step N (.splitOff i) cs) := by
  simp only [exec, step]
  split
  next h =>
    refine Sim.err (call_err (e := Error.outOfBounds) ?_) hs
    simp [M.bind_apply, splitOff_oob hs h]
  next h =>
  split
  next p q hc =>
    obtain ⟨rfl, rfl⟩ := cutAt_some.1 hc
    obtain ⟨s', t, e, hs', ht⟩ := splitOff_ok hN hs
    refine Sim.ok (call_ok (a := utf8 q) ?_) hs'
    simp [M.bind_apply, e, ht.asStr]
  next hc =>
    refine Sim.err (call_err (e := Error.utf8) ?_) hs
    simp [M.bind_apply, splitOff_utf8 hs (by omega) (cutAt_none.1 hc)]

theorem replaceRange_sim [ValidCapacity N] (hs : Holds s cs) (r : RangeB) (hr : RangeOk r) (w : List Char) :
    Sim s (exec (.replaceRange r w) s) (step N (.replaceRange r w) cs) := by
  obtain ⟨h1, h2, h3⟩ := C26_replace_range s cs w r hr hs
  simp only [exec, step]
  split
  next h => exact Sim.ok (call_ok (h1 h.2 h.1)) hs
  next h =>
  have h' : ¬ (min (startOf r) usizeMax = min (endOf r (byteLen cs)) usizeMax ∧ w = []) := fun x => h x.symm
  obtain ⟨h2, h2'⟩ := h2 h'
  split
  next hi =>
    refine Sim.err (call_err (h2 ?_)) hs
    rintro ⟨a, b⟩
    rcases hi with hi | hi
    · exact hi a
    · omega
  next hi =>
  rw [not_or, Classical.not_not] at hi
  split
  next hc =>
    have hn := cut2_none.1 hc
    exact Sim.err (call_err (h2' hi.1 (by omega) fun hb => hn ⟨hi.1.1, hb.1, hb.2⟩)) hs
  next p m q hc =>
    obtain ⟨h4, h5⟩ := h3 p m q (cut2_some.1 hc).1 (cut2_some.1 hc).2.1 (cut2_some.1 hc).2.2
    split
    next hl => obtain ⟨s', e, hs'⟩ := h4 hl; exact Sim.ok (call_ok e) hs'
    next hl => exact Sim.err (call_err (h5 (by omega))) hs

theorem utf16_sim (hN : N ≤ 255) (hs : Holds s cs) (l : List UInt16) :
    Sim s (exec (.tryFromUtf16 l) s) (step N (.tryFromUtf16 l) cs) ∧
    Sim s (exec (.fromUtf16Truncate l) s) (step N (.fromUtf16Truncate l) cs) ∧
    Sim s (exec (.fromUtf16LossyTruncate l) s) (step N (.fromUtf16LossyTruncate l) cs) := by
  have hg := segment_segments l
  simp only [exec, step]
  refine ⟨?_, ?_, ?_⟩
  · obtain ⟨h1, h2, h3⟩ := tryFromUtf16_spec hN hg
    rw [← allChars_iff] at h1 h2
    split
    next h => exact Sim.err (construct_err (h3 h)) hs
    next h =>
    split
    next hv => obtain ⟨t, e, ht⟩ := h1 (by omega) hv; exact Sim.ok (construct_ok e) ht
    next hv => exact Sim.err (construct_err (h2 (by omega) hv)) hs
  · obtain ⟨h1, h2⟩ := fromUtf16Truncate_spec hN hg
    rw [← allChars_iff] at h1 h2
    split
    next h => obtain ⟨t, e, ht⟩ := h1 h.symm; exact Sim.ok (construct_ok e) ht
    next h => rw [not_or] at h; exact Sim.err (construct_err (h2 (by omega) h.2)) hs
  · obtain ⟨t, e, ht⟩ := fromUtf16LossyTruncate_spec (ε := Error) hN hg
    exact Sim.ok (construct_ok e) ht

theorem writeFmt_sim (hN : N ≤ 255) (hs : Holds s cs) (ws : List (List Char)) :
    (exec (.writeFmt ws) s).1 = (step N (.writeFmt ws) cs).1.toRes ∧
    Holds (exec (.writeFmt ws) s).2 (step N (.writeFmt ws) cs).2 := by
  simp only [exec, step, writeFmt]
  induction ws generalizing s cs with
  | nil => exact ⟨rfl, hs⟩
  | cons w ws ih =>
    have hle := hs.le
    rw [writeAll, List.map_cons, Fmt.write]
    by_cases hw : w = []
    · subst hw
      rw [if_pos (show List.isEmpty (utf8 []) = true from rfl), if_pos (by simpa using hle)]
      simpa using ih hs
    have hw' : ¬ (utf8 w).isEmpty = true := by rwa [List.isEmpty_iff, utf8_eq_nil]
    rw [if_neg hw']
    split
    next h =>
      obtain ⟨s', e, hs'⟩ := writeStr_ok hN hs h
      have e1 : sink.writeStr (utf8 w) s = (.ok (), s') := e
      have := ih hs'
      simp only [call, M.bind_apply, M.mapErr_apply, e1] at this ⊢
      exact this
    next h =>
      have e := writeStr_err hN hs (w := w) (by omega)
      have e1 : sink.writeStr (utf8 w) s = (.err {}, s) := e
      simp only [call, M.bind_apply, M.mapErr_apply, e1]
      exact ⟨rfl, hs⟩

/-- Every call but `write!` answers as specified, leaves the specified text, and leaves the string
exactly as it was if it fails or panics. -/
theorem exec_sim [ValidCapacity N] (op : Op) (hop : op.Ok) (hw : ∀ ws, op ≠ .writeFmt ws) (hs : Holds s cs) :
    Sim s (exec op s) (step N op cs) := by
  have hN := ValidCapacity.le (N := N)
  have hle := hs.le
  cases op with
  | writeFmt ws => exact absurd rfl (hw ws)
  | tryFromIterator ws => exact tryFromIterator_sim hN hs ws
  | fromIteratorTruncate ws =>
    have := fromIteratorTruncate_sim hN hs Prod.fst Prod.snd ws
    simpa [exec, step] using this
  | collectStrs ws => exact fromIteratorTruncate_sim hN hs id id ws
  | tryFromChars w => exact tryFromChars_sim hN hs w
  | fromCharsTruncate w => exact fromCharsTruncate_sim hN hs w
  | collectChars w => exact fromCharsTruncate_sim hN hs w
  | tryFromUtf16 l => exact (utf16_sim hN hs l).1
  | fromUtf16Truncate l => exact (utf16_sim hN hs l).2.1
  | fromUtf16LossyTruncate l => exact (utf16_sim hN hs l).2.2
  | drain r es => exact drain_sim hs r es
  | splitOff i => exact splitOff_sim hN hs i
  | replaceRange r w => exact replaceRange_sim hs r hop w
  | extendChars w => exact extendChars_sim hN hs w
  | extendStrs ws => exact extendStrs_sim hN hs ws
  | tryInsert i c =>
    have := insertAt_sim hN hs i [c]
    rw [← encodeUtf8_eq] at this; exact this
  | tryInsertStr i w => exact insertAt_sim hN hs i w
  | insertStrTruncate i w =>
    have := insertAt_sim hN hs i (takeFit (N - byteLen cs) w)
    have e := insertStrTruncate_eq (i := i) (w := w) hs
    simp only [exec, step]
    simp only [call, M.bind_apply, M.mapErr_apply, e] at this ⊢
    exact this
  | new => exact Sim.ok (construct_ok rfl) holds_new
  | default => exact Sim.ok (construct_ok rfl) holds_new
  | tryFromStr w =>
    simp only [exec, step]
    split
    next h => obtain ⟨t, e, ht⟩ := tryFromStr_ok hN h; exact Sim.ok (construct_ok e) ht
    next h => exact Sim.err (construct_err (tryFromStr_err hN (by omega))) hs
  | parse w =>
    simp only [exec, step]
    split
    next h => obtain ⟨t, e, ht⟩ := tryFromStr_ok hN h; exact Sim.ok (construct_ok e) ht
    next h => exact Sim.err (construct_err (tryFromStr_err hN (by omega))) hs
  | fromStrTruncate w => obtain ⟨t, e, ht⟩ := fromStrTruncate_ok (ε := Error) hN w; exact Sim.ok (construct_ok e) ht
  | from_ w => obtain ⟨t, e, ht⟩ := fromStrTruncate_ok (ε := Error) hN w; exact Sim.ok (construct_ok e) ht
  | tryPushStr w =>
    simp only [exec, step]
    split
    next h => obtain ⟨t, e, ht⟩ := tryPushStr_ok hN hs (w := w) (by omega); exact Sim.ok (call_ok e) ht
    next h => exact Sim.err (call_err (tryPushStr_err hN hs (by omega))) hs
  | pushStrTruncate w => obtain ⟨t, e, ht⟩ := pushStrTruncate_ok (ε := Error) hN w hs; exact Sim.ok (call_ok e) ht
  | tryPush c =>
    simp only [exec, step]
    split
    next h => obtain ⟨t, e, ht⟩ := tryPush_ok hN hs (c := c) (by omega); exact Sim.ok (call_ok e) ht
    next h => exact Sim.err (call_err (tryPush_err hN hs (by omega))) hs
  | truncate n =>
    simp only [exec, step]
    split
    next h => exact Sim.ok (call_ok (truncate_ge hs h)) hs
    next h =>
    split
    next p q hc =>
      obtain ⟨rfl, rfl⟩ := cutAt_some.1 hc
      obtain ⟨t, e, ht⟩ := truncate_ok hN hs (n := byteLen p) (by omega)
      exact Sim.ok (call_ok e) ht
    next hc => exact Sim.err (call_err (truncate_err hs (by omega) (cutAt_none.1 hc))) hs
  | pop =>
    simp only [exec, step]
    rcases List.eq_nil_or_concat cs with rfl | ⟨l, c, rfl⟩
    · exact Sim.ok (call_ok (pop_nil hs)) hs
    · rw [List.concat_eq_append] at *
      obtain ⟨t, e, ht⟩ := pop_append (ε := Error) hs
      simpa using Sim.ok (call_ok e) ht
  | trim =>
    obtain ⟨t, e, ht⟩ := trim_ok (ε := Error) hN hs (trimmed_trimText cs)
    exact Sim.ok (call_ok e) ht
  | remove i =>
    simp only [exec, step]
    split
    next h => exact Sim.err (call_err (remove_oob hN hs h)) hs
    next h =>
    split
    next p c q hc =>
      obtain ⟨rfl, rfl⟩ := cutAt_some.1 hc
      obtain ⟨t, e, ht⟩ := remove_ok hN hs
      exact Sim.ok (call_ok e) ht
    next hc =>
      refine Sim.err (call_err (remove_utf8 hs (by omega) ?_)) hs
      rintro ⟨p, q, rfl, rfl⟩
      cases q with
      | nil => simp at h
      | cons c q => exact hc p c q (cutAt_some.2 ⟨rfl, rfl⟩)
  | retain f =>
    simp only [exec, step]
    split
    next out q hk => obtain ⟨t, e, ht⟩ := retain_ok (ε := Error) hN hs hk; exact Sim.ok (call_ok e) ht
    next hk => exact Sim.panic (call_panic (retain_panic hN hs hk)) hs
  | clear => obtain ⟨t, e, ht⟩ := clear_ok (ε := Error) hs; exact Sim.ok (call_ok e) ht
  | add w =>
    obtain ⟨t, e, ht⟩ := add_ok (ε := Error) hN hs w
    exact Sim.ok (x := construct (ε := Error) (s.add (utf8 w)) id s) (construct_ok e) ht
  | writeStr w =>
    simp only [exec, step]
    split
    next h => obtain ⟨t, e, ht⟩ := writeStr_ok hN hs (w := w) (by omega); exact Sim.ok (call_ok e) ht
    next h => exact Sim.err (call_err (writeStr_err hN hs (by omega))) hs
  | index i =>
    simp only [exec, step]
    split
    next p m q hc => exact Sim.ok (query_ok (index_ok hs (cut2_some.1 hc))) hs
    next hc => exact Sim.panic (query_panic (index_panic hs (cut2_none.1 hc))) hs
  | indexMut i e =>
    simp only [exec, step]
    split
    next p m q hc =>
      obtain ⟨t, e, ht, _⟩ := indexMut_ok (ε := Error) hs (cut2_some.1 hc) (onBytes_utf8 e m) (e.keeps m)
      exact Sim.ok (call_ok e) ht
    next hc => exact Sim.panic (call_panic (indexMut_panic hs (cut2_none.1 hc))) hs
  | asMutStr e =>
    obtain ⟨e, ht⟩ := asMutStr_ok (ε := Error) hs (onBytes_utf8 e cs) (e.keeps cs)
    exact Sim.ok (call_ok e) ht
  | asStr => exact Sim.ok (query_ok hs.asStr) hs
  | asBytes => exact Sim.ok (query_ok hs.asRefBytes) hs
  | display =>
    refine Sim.ok (query_ok ?_) hs
    rw [C32_display collect {} s cs hs]
    simp [M.onLocal, collect]
  | len =>
    have := Sim.ok (s := s) (query_ok (ε := Error) (f := fun s : ArrayString N => .ok s.len) (s := s) (out := .nat) rfl) hs
    rw [hs.len] at this; exact this
  | isEmpty =>
    refine Sim.ok (query_ok (a := decide (cs = [])) ?_) hs
    have h : (utf8 cs).isEmpty = decide (cs = []) := by
      rw [Bool.eq_iff_iff, List.isEmpty_iff, utf8_eq_nil, decide_eq_true_eq]
    simp [ArrayString.isEmpty, hs.asRefStr, h]
  | capacity => exact Sim.ok (query_ok rfl) hs
  | eqStr w =>
    refine Sim.ok (query_ok (a := decide (cs = w)) ?_) hs
    have h : (utf8 cs == utf8 w) = decide (cs = w) := by
      rw [Bool.eq_iff_iff]
      simp only [beq_iff_eq, decide_eq_true_eq]
      exact ⟨utf8_injective, fun h => h ▸ rfl⟩
    simp [eqStr, hs.asStr, Str.eq, h]
  | hash =>
    refine Sim.ok (query_ok (C29_hash traceHasher [] s cs hs).1) hs

end Verif
