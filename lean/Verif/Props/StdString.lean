import Verif.Spec.StdString
import Verif.Props.History

/-! # Agreement with `std::string::String` -/

namespace Verif
open Spec ArrayString

variable {N : Nat} [ValidCapacity N] {α : Type}

theorem drainScript_ok {l : Script α} {as : List α} (h : drainScript l = .ok as) : l = as.map some := by
  induction l generalizing as with
  | nil => simp [drainScript] at h; simp [← h]
  | cons a l ih =>
    cases a with
    | none => simp [drainScript] at h
    | some a =>
      rw [drainScript] at h
      cases e : drainScript l with
      | error x => rw [e] at h; simp at h
      | ok x => rw [e] at h; simp at h; subst h; simp [ih e]

theorem drainScript_error {l : Script α} {as : List α} (h : drainScript l = .error as) : none ∈ l := by
  induction l generalizing as with
  | nil => simp [drainScript] at h
  | cons a l ih =>
    cases a with
    | none => simp
    | some a =>
      rw [drainScript] at h
      cases e : drainScript l with
      | error x => exact List.mem_cons_of_mem _ (ih e)
      | ok x => rw [e] at h; simp at h

theorem segChars_some {l : List Seg} {w : List Char} (h : segChars l = some w) :
    allChars l = true ∧ leadingChars l = w := by
  induction l generalizing w with
  | nil => simp [segChars] at h; simp [allChars, leadingChars, h]
  | cons a l ih =>
    cases a with
    | lone u => simp [segChars] at h
    | chr c =>
      simp only [segChars, Option.map_eq_some_iff] at h
      obtain ⟨w', h1, rfl⟩ := h
      obtain ⟨h2, h3⟩ := ih h1
      exact ⟨h2, by simp [leadingChars, h3]⟩

theorem segChars_none {l : List Seg} (h : segChars l = none) : allChars l = false := by
  induction l with
  | nil => simp [segChars] at h
  | cons a l ih =>
    cases a with
    | lone u => rfl
    | chr c => simp only [segChars, Option.map_eq_none_iff] at h; exact ih h

theorem stdRetain_keep (f : List Char → Char → Option Bool) (seen cs : List Char) :
    (∀ out, stdRetain f seen cs = (some (), out) → ∃ q, keep (logged f) seen cs = some (out, q)) ∧
    (∀ out, stdRetain f seen cs = (none, out) → keep (logged f) seen cs = none) := by
  induction cs generalizing seen with
  | nil => exact ⟨fun out h => ⟨seen, by simp [stdRetain] at h; simp [keep, h]⟩, fun out h => by simp [stdRetain] at h⟩
  | cons c cs ih =>
    obtain ⟨i1, i2⟩ := ih (seen ++ [c])
    rw [stdRetain, keep, logged]
    cases hf : f seen c with
    | none => simp
    | some b =>
      simp only [Option.map_some]
      rcases hr : stdRetain f (seen ++ [c]) cs with ⟨r, out'⟩
      cases r with
      | none =>
        rw [i2 out' hr]
        exact ⟨fun out h => by simp at h, fun out _ => rfl⟩
      | some u =>
        obtain ⟨q, hq⟩ := i1 out' hr
        rw [hq]
        exact ⟨fun out h => ⟨q, by simp at h; simp [h]⟩, fun out h => by simp at h⟩

theorem single_eq_twice (w : Script Char) : single w = twice (w.map (Option.map fun c => [c])) := by
  simp [single, twice, Function.comp_def]

theorem collect_all {cs cs' : List Char} {o : Out} {ws : Script (List Char)} {n : Nat}
    (h : stdCollect cs (drainScript ws) = (.returned o, cs')) (hf : byteLen cs' ≤ n) :
    assign cs (gatherAll n (twice ws)) = (.returned o, cs') := by
  cases e : drainScript ws with
  | error x => rw [e] at h; simp [stdCollect] at h
  | ok x =>
    rw [e] at h
    simp [stdCollect] at h
    obtain ⟨rfl, rfl⟩ := h
    rw [drainScript_ok e, C03_gather_all, if_pos hf]; rfl

theorem collect_fit {cs cs' : List Char} {o : Out} {ws : Script (List Char)} {n : Nat}
    (h : stdCollect cs (drainScript ws) = (.returned o, cs')) (hf : byteLen cs' ≤ n) :
    assign cs (gatherFit n (twice ws)) = (.returned o, cs') := by
  cases e : drainScript ws with
  | error x => rw [e] at h; simp [stdCollect] at h
  | ok x =>
    rw [e] at h
    simp [stdCollect] at h
    obtain ⟨rfl, rfl⟩ := h
    rw [drainScript_ok e, C03_gather_fit, takeFit_of_le hf]; rfl

theorem extend_fit {cs cs' : List Char} {o : Out} {ws : Script (List Char)} {n : Nat}
    (h : stdExtend cs (drainScript ws) = (.returned o, cs')) (hf : byteLen cs' ≤ n) :
    (match gatherFit n (twice ws) with
      | .ok w => (.returned .unit, cs ++ takeFit (n - byteLen cs) w)
      | .error a => (a, cs)) = (Answer.returned o, cs') := by
  cases e : drainScript ws with
  | error x => rw [e] at h; simp [stdExtend] at h
  | ok x =>
    rw [e] at h
    simp [stdExtend] at h
    obtain ⟨rfl, rfl⟩ := h
    simp at hf
    rw [drainScript_ok e, C03_gather_fit, takeFit_of_le (n := n) (by omega)]
    simp only
    rw [takeFit_of_le (by omega)]

theorem insert_fit {cs cs' w : List Char} {o : Out} {n i : Nat}
    (h : stdInsert i w cs = (.returned o, cs')) (hf : byteLen cs' ≤ n) :
    insertAt n i w cs = (.returned o, cs') := by
  unfold stdInsert at h
  split at h
  next p q hc =>
    simp at h
    obtain ⟨rfl, rfl⟩ := h
    obtain ⟨rfl, rfl⟩ := cutAt_some.1 hc
    simp at hf
    unfold insertAt
    rw [if_neg (by simp)]
    split
    next hw => simp [hw]
    next hw =>
      rw [if_neg (by omega), hc]
      simp only
      rw [if_pos (by simp; omega)]
      simp
  next => simp at h

theorem writeAll_fit {ws : List (List Char)} {cs : List Char} {n : Nat} (hf : byteLen (cs ++ ws.flatten) ≤ n) :
    writeAll n ws cs = (.returned .unit, cs ++ ws.flatten) := by
  induction ws generalizing cs with
  | nil => simp [writeAll]
  | cons w ws ih =>
    simp at hf
    rw [writeAll, if_pos (by omega), ih (by simp; omega)]
    simp

/-- What `String` does, if it fits, is what the bounded string does. -/
theorem step_of_std (op : Op) (cs cs' : List Char) (o : Out) (hcs : byteLen cs ≤ N)
    (h : stdStep op cs = some (.returned o, cs')) (hf : byteLen cs' ≤ N) :
    step N op cs = (.returned o, cs') := by
  cases op with
  | new => simpa [stdStep, step] using h
  | default => simpa [stdStep, step] using h
  | tryFromStr w => simp [stdStep] at h; obtain ⟨rfl, rfl⟩ := h; simp [step, hf]
  | parse w => simp [stdStep] at h; obtain ⟨rfl, rfl⟩ := h; simp [step, hf]
  | fromStrTruncate w => simp [stdStep] at h; obtain ⟨rfl, rfl⟩ := h; simp [step, takeFit_of_le hf]
  | from_ w => simp [stdStep] at h; obtain ⟨rfl, rfl⟩ := h; simp [step, takeFit_of_le hf]
  | tryFromIterator ws => exact collect_all (by simpa [stdStep] using h) hf
  | collectStrs ws => exact collect_fit (by simpa [stdStep] using h) hf
  | fromIteratorTruncate ws =>
    simp only [stdStep] at h
    split at h
    next hh =>
      have e : ws = twice (ws.map (Option.map Prod.fst)) := by
        rw [twice, List.map_map]
        conv => lhs; rw [← List.map_id ws]
        apply List.map_congr_left
        intro p hp
        cases p with
        | none => rfl
        | some q => have := hh _ hp q rfl; simp [Prod.ext_iff, this]
      have := collect_fit (n := N) (by simpa using h) hf
      rw [← e] at this
      exact this
    next => simp at h
  | tryFromChars w => simp only [step, single_eq_twice]; exact collect_all (by simpa [stdStep] using h) hf
  | fromCharsTruncate w => simp only [step, single_eq_twice]; exact collect_fit (by simpa [stdStep] using h) hf
  | collectChars w => simp only [step, single_eq_twice]; exact collect_fit (by simpa [stdStep] using h) hf
  | tryFromUtf16 l =>
    simp only [stdStep] at h
    split at h
    next w hw =>
      simp at h; obtain ⟨rfl, rfl⟩ := h
      obtain ⟨h1, h2⟩ := segChars_some hw
      simp only [step]
      rw [h2, if_neg (by omega), if_pos h1]
    next => simp at h
  | fromUtf16Truncate l =>
    simp only [stdStep] at h
    split at h
    next w hw =>
      simp at h; obtain ⟨rfl, rfl⟩ := h
      obtain ⟨h1, h2⟩ := segChars_some hw
      simp only [step]
      rw [h2, if_pos (.inr h1), takeFit_of_le hf]
    next => simp at h
  | fromUtf16LossyTruncate l =>
    simp [stdStep] at h; obtain ⟨rfl, rfl⟩ := h
    simp only [step]; rw [takeFit_of_le hf]
  | tryPushStr w => simp [stdStep] at h; obtain ⟨rfl, rfl⟩ := h; simp at hf; simp only [step]; rw [if_pos (by omega)]
  | writeStr w => simp [stdStep] at h; obtain ⟨rfl, rfl⟩ := h; simp at hf; simp only [step]; rw [if_pos (by omega)]
  | tryPush c => simp [stdStep] at h; obtain ⟨rfl, rfl⟩ := h; simp at hf; simp only [step]; rw [if_pos (by omega)]
  | pushStrTruncate w =>
    simp [stdStep] at h; obtain ⟨rfl, rfl⟩ := h; simp at hf; simp only [step]; rw [takeFit_of_le (by omega)]
  | add w =>
    simp [stdStep] at h; obtain ⟨rfl, rfl⟩ := h; simp at hf; simp only [step]; rw [takeFit_of_le (by omega)]
  | writeFmt ws => simp [stdStep] at h; obtain ⟨rfl, rfl⟩ := h; exact writeAll_fit hf
  | truncate n =>
    simp only [stdStep] at h
    simp only [step]
    split at h
    next h1 => rw [if_pos h1]; simpa using h
    next h1 =>
      rw [if_neg h1]
      split at h <;> simp_all
  | pop => simpa [stdStep, step] using h
  | trim => simpa [stdStep, step] using h
  | clear => simpa [stdStep, step] using h
  | remove i =>
    simp only [stdStep] at h
    split at h
    next p c q hc =>
      obtain ⟨rfl, rfl⟩ := cutAt_some.1 hc
      have hp := c.utf8Size_pos
      simp only [step]
      rw [if_neg (by simp; omega), hc]
      simpa using h
    next => simp at h
  | retain f =>
    simp only [stdStep] at h
    split at h
    next out hr =>
      obtain ⟨q, hq⟩ := (stdRetain_keep f [] cs).1 out hr
      simp only [step, hq]
      simpa using h
    next => simp at h
  | tryInsert i c => exact insert_fit (by simpa [stdStep] using h) hf
  | tryInsertStr i w => exact insert_fit (by simpa [stdStep] using h) hf
  | insertStrTruncate i w =>
    simp only [stdStep, Option.some.injEq] at h
    have hw : takeFit (N - byteLen cs) w = w := by
      unfold stdInsert at h
      split at h
      next p q hc =>
        simp at h
        obtain ⟨rfl, rfl⟩ := h
        obtain ⟨rfl, rfl⟩ := cutAt_some.1 hc
        simp at hf
        exact takeFit_of_le (by simp; omega)
      next => simp at h
    simp only [step, hw]
    exact insert_fit h hf
  | drain r es =>
    simp only [stdStep] at h
    split at h
    next p m q hc =>
      obtain ⟨hpq, ha, hb⟩ := cut2_some.1 hc
      simp only [step]
      rw [if_pos, hc]
      · simpa using h
      · simp only at ha hb
        have hl : byteLen cs = byteLen p + (byteLen m + byteLen q) := by rw [hpq]; simp
        rw [byteLen_append] at hb
        omega
    next => simp at h
  | splitOff i =>
    simp only [stdStep] at h
    split at h
    next p q hc =>
      obtain ⟨rfl, rfl⟩ := cutAt_some.1 hc
      simp only [step]
      rw [if_neg (by simp), hc]
      simpa using h
    next => simp at h
  | replaceRange r w =>
    simp only [stdStep] at h
    split at h
    next p m q hc =>
      obtain ⟨hpq, ha, hb⟩ := cut2_some.1 hc
      simp only at ha hb
      simp only [Option.some.injEq, Prod.mk.injEq, Answer.returned.injEq] at h
      obtain ⟨rfl, rfl⟩ := h
      have hl : byteLen cs = byteLen p + (byteLen m + byteLen q) := by rw [hpq]; simp
      rw [byteLen_append] at hb
      simp only [step]
      split
      next hw =>
        obtain ⟨rfl, hm⟩ := hw
        have hu := usizeMax_ge
        have hN := ‹ValidCapacity N›.mem
        simp only [List.mem_range'_1] at hN
        have : byteLen m = 0 := by omega
        rw [byteLen_eq_zero.1 this] at hpq
        simp [hpq]
      next hw =>
        rw [if_neg, hc]
        · simp only
          rw [if_pos hf]
        · simp at hf
          rintro (h | h)
          · exact h ⟨by omega, by omega⟩
          · omega
    next => simp at h
  | extendChars w => simp only [step, single_eq_twice]; exact extend_fit (by simpa [stdStep] using h) hf
  | extendStrs w => exact extend_fit (by simpa [stdStep] using h) hf
  | asMutStr e => simpa [stdStep, step] using h
  | asStr => simpa [stdStep, step] using h
  | asBytes => simpa [stdStep, step] using h
  | display => simpa [stdStep, step] using h
  | len => simpa [stdStep, step] using h
  | isEmpty => simpa [stdStep, step] using h
  | eqStr w => simpa [stdStep, step] using h
  | hash => simpa [stdStep, step] using h
  | capacity => simp [stdStep] at h
  | index i => simp [stdStep] at h
  | indexMut i e => simp [stdStep] at h

/-- C47: whenever the `String` call returns and the resulting text fits the capacity, the call on the
`ArrayString` returns the same value and leaves the same text. -/
theorem C47_agrees (op : Op) (hop : op.Ok) (s : ArrayString N) (cs cs' : List Char) (o : Out) (hs : Holds s cs)
    (h : stdStep op cs = some (.returned o, cs')) (hf : byteLen cs' ≤ N) :
    (exec op s).1 = .ok o ∧ Holds (exec op s).2 cs' := by
  have := exec_step op hop s cs hs
  rw [step_of_std op cs cs' o hs.le h hf] at this
  exact this

example : stdStep (.replaceRange ⟨.included 1, .excluded 3⟩ ['e']) ['h', 'é', ' '] =
    some (.returned .unit, ['h', 'e', ' ']) := by decide
example : stdStep (.insertStrTruncate 3 ['€']) ['h', 'é', ' '] = some (.returned .unit, ['h', 'é', '€', ' ']) := by
  decide
example : (exec (N := 8) (.replaceRange ⟨.included 1, .excluded 3⟩ ['e']) sample).1 = .ok .unit :=
  (C47_agrees _ (by simp [Op.Ok, RangeOk, BoundOk]; have := usizeMax_ge; omega) sample ['h', 'é', ' '] ['h', 'e', ' '] .unit
    sample_holds (by decide) (by decide)).1

/-- A history of calls on a `String`, all of which return, all of whose texts fit `n` bytes. -/
def stdFits (n : Nat) : List Op → List Char → Option (List Out × List Char)
  | [], cs => some ([], cs)
  | op :: ops, cs =>
    match stdStep op cs with
    | some (.returned o, cs') =>
      if byteLen cs' ≤ n then (stdFits n ops cs').map fun (os, e) => (o :: os, e) else none
    | _ => none

/-- C47, for whole histories: as long as a `String` does not panic and does not outgrow the capacity, a
program cannot tell the `ArrayString` from it. -/
theorem C47_history (ops : List Op) (hops : ∀ op ∈ ops, op.Ok) (s : ArrayString N) (cs cs' : List Char)
    (os : List Out) (hs : Holds s cs) (h : stdFits N ops cs = some (os, cs')) :
    (runOps ops s).1 = os.map .ok ∧ Holds (runOps ops s).2 cs' := by
  induction ops generalizing s cs os with
  | nil => simp [stdFits] at h; obtain ⟨rfl, rfl⟩ := h; exact ⟨rfl, hs⟩
  | cons op ops ih =>
    rw [stdFits] at h
    split at h
    next o c1 h1 =>
      split at h
      next hf =>
        simp only [Option.map_eq_some_iff, Prod.exists, Prod.mk.injEq] at h
        obtain ⟨os', e', h2, rfl, rfl⟩ := h
        obtain ⟨a, b⟩ := C47_agrees op (hops op (List.mem_cons_self ..)) s cs c1 o hs h1 hf
        obtain ⟨c, d⟩ := ih (fun op ho => hops op (List.mem_cons_of_mem _ ho)) _ c1 os' b h2
        simp only [runOps, List.map_cons]
        exact ⟨by rw [a, c], d⟩
      next => simp at h
    next => simp at h

example : stdFits 8 [.tryPushStr ['a', '€'], .pop, .tryInsert 0 'é', .remove 0, .len] ['h', 'é', ' '] =
    some ([.unit, .optChar (some '€'), .unit, .char 'é', .nat 5], ['h', 'é', ' ', 'a']) := by decide

/-- The empty insertions whose index is not looked at (C45). -/
def EmptyInsert (n : Nat) (op : Op) (cs : List Char) : Prop :=
  match op with
  | .tryInsertStr i w => i ≤ byteLen cs ∧ w = []
  | .insertStrTruncate i w => i ≤ byteLen cs ∧ takeFit (n - byteLen cs) w = []
  | .replaceRange r w => w = [] ∧ min (startOf r) usizeMax = min (endOf r (byteLen cs)) usizeMax
  | _ => False

omit [ValidCapacity N] in
theorem insert_panic {cs x w v : List Char} {n i : Nat} (h : stdInsert i w cs = (.panicked, x)) :
    (i ≤ byteLen cs ∧ v = [] ∧ insertAt n i v cs = (.returned .unit, cs)) ∨
    (¬ (i ≤ byteLen cs ∧ v = []) ∧ ∃ e, (e = .outOfBounds ∨ e = .utf8) ∧ insertAt n i v cs = (.failed e, cs)) := by
  unfold stdInsert at h
  split at h
  next => simp at h
  next hc =>
    unfold insertAt
    split
    next h1 => exact .inr ⟨by omega, _, .inl rfl, rfl⟩
    next h1 =>
      split
      next h2 => exact .inl ⟨by omega, h2, rfl⟩
      next h2 =>
        split
        next => exact .inr ⟨by simp [h2], _, .inl rfl, rfl⟩
        next => rw [hc]; exact .inr ⟨by simp [h2], _, .inr rfl, rfl⟩

omit [ValidCapacity N] in
theorem step_of_std_panic (op : Op) (hc : op.Calm) (cs x : List Char) (h : stdStep op cs = some (.panicked, x)) :
    (EmptyInsert N op cs ∧ step N op cs = (.returned .unit, cs)) ∨
    (¬ EmptyInsert N op cs ∧ ∃ e, (e = .outOfBounds ∨ e = .utf8) ∧ step N op cs = (.failed e, cs)) := by
  have hcol : ∀ ws, none ∉ ws → stdCollect cs (drainScript ws) ≠ (.panicked, x) := by
    intro ws hw h
    cases e : drainScript ws with
    | error y => exact hw (drainScript_error e)
    | ok y => rw [e] at h; simp [stdCollect] at h
  have hext : ∀ ws, none ∉ ws → stdExtend cs (drainScript ws) ≠ (.panicked, x) := by
    intro ws hw h
    cases e : drainScript ws with
    | error y => exact hw (drainScript_error e)
    | ok y => rw [e] at h; simp [stdExtend] at h
  cases op with
  | tryFromIterator ws => exact absurd (by simpa [stdStep] using h) (hcol _ hc)
  | collectStrs ws => exact absurd (by simpa [stdStep] using h) (hcol _ hc)
  | fromIteratorTruncate ws =>
    simp only [stdStep] at h
    split at h
    next =>
      refine absurd (by simpa using h) (hcol _ ?_)
      intro hm
      simp only [List.mem_map, Option.map_eq_none_iff] at hm
      obtain ⟨a, ha, rfl⟩ := hm
      exact hc ha
    next => simp at h
  | tryFromChars w | fromCharsTruncate w | collectChars w =>
    refine absurd (by simpa [stdStep] using h) (hcol _ ?_)
    intro hm
    simp only [List.mem_map, Option.map_eq_none_iff] at hm
    obtain ⟨a, ha, rfl⟩ := hm
    exact hc ha
  | extendChars w =>
    refine absurd (by simpa [stdStep] using h) (hext _ ?_)
    intro hm
    simp only [List.mem_map, Option.map_eq_none_iff] at hm
    obtain ⟨a, ha, rfl⟩ := hm
    exact hc ha
  | extendStrs w => exact absurd (by simpa [stdStep] using h) (hext _ hc)
  | retain f =>
    simp only [stdStep] at h
    split at h
    next => simp at h
    next out hr => exact absurd ((stdRetain_keep f [] cs).2 _ hr) (keep_calm hc [] cs)
  | truncate n =>
    simp only [stdStep] at h
    split at h
    next => simp at h
    next h1 =>
      split at h
      next => simp at h
      next h2 => exact .inr ⟨by simp [EmptyInsert], _, .inr rfl, by simp [step, h1, h2]⟩
  | remove i =>
    refine .inr ⟨by simp [EmptyInsert], ?_⟩
    simp only [stdStep] at h
    simp only [step]
    split
    next => exact ⟨_, .inl rfl, rfl⟩
    next =>
      split at h
      next => simp at h
      next hn =>
        split
        next p c q hc => exact absurd hc (hn p c q)
        next => exact ⟨_, .inr rfl, rfl⟩
  | tryInsert i c =>
    rcases insert_panic (n := N) (v := [c]) (by simpa [stdStep] using h) with ⟨_, h, _⟩ | ⟨_, h⟩
    · simp at h
    · exact .inr ⟨by simp [EmptyInsert], h⟩
  | tryInsertStr i w =>
    rcases insert_panic (n := N) (v := w) (by simpa [stdStep] using h) with ⟨h1, h2, h3⟩ | ⟨h1, h2⟩
    · exact .inl ⟨⟨h1, h2⟩, h3⟩
    · exact .inr ⟨h1, h2⟩
  | insertStrTruncate i w =>
    rcases insert_panic (n := N) (v := takeFit (N - byteLen cs) w) (by simpa [stdStep] using h) with
      ⟨h1, h2, h3⟩ | ⟨h1, h2⟩
    · exact .inl ⟨⟨h1, h2⟩, h3⟩
    · exact .inr ⟨h1, h2⟩
  | drain r es =>
    refine .inr ⟨by simp [EmptyInsert], ?_⟩
    simp only [stdStep] at h
    split at h
    next => simp at h
    next hc =>
      simp only [step]
      split
      next => rw [hc]; exact ⟨_, .inr rfl, rfl⟩
      next => exact ⟨_, .inl rfl, rfl⟩
  | splitOff i =>
    refine .inr ⟨by simp [EmptyInsert], ?_⟩
    simp only [stdStep] at h
    split at h
    next => simp at h
    next hc =>
      simp only [step]
      split
      next => exact ⟨_, .inl rfl, rfl⟩
      next => rw [hc]; exact ⟨_, .inr rfl, rfl⟩
  | replaceRange r w =>
    simp only [stdStep] at h
    split at h
    next => simp at h
    next hc =>
      simp only [step]
      split
      next h1 => exact .inl ⟨h1, rfl⟩
      next h1 =>
        refine .inr ⟨h1, ?_⟩
        split
        next => exact ⟨_, .inl rfl, rfl⟩
        next => rw [hc]; exact ⟨_, .inr rfl, rfl⟩
  | tryFromUtf16 l | fromUtf16Truncate l =>
    simp only [stdStep] at h
    split at h <;> simp at h
  | _ => simp [stdStep] at h

/-- C47: where the `String` call panics (a bad index), the call on the `ArrayString` fails with
`OutOfBounds` or `Utf8` and changes nothing, except that it succeeds, and changes nothing either, in
exactly the empty insertions of C45. -/
theorem C47_panics (op : Op) (hop : op.Ok) (hc : op.Calm) (s : ArrayString N) (cs x : List Char) (hs : Holds s cs)
    (h : stdStep op cs = some (.panicked, x)) :
    Holds (exec op s).2 cs ∧
    ((EmptyInsert N op cs ∧ (exec op s).1 = .ok .unit) ∨
     (¬ EmptyInsert N op cs ∧ ((exec op s).1 = .err .outOfBounds ∨ (exec op s).1 = .err .utf8))) := by
  have := exec_step op hop s cs hs
  rcases step_of_std_panic (N := N) op hc cs x h with ⟨h1, h2⟩ | ⟨h1, e, he, h2⟩
  · rw [h2] at this
    exact ⟨this.2, .inl ⟨h1, this.1⟩⟩
  · rw [h2] at this
    refine ⟨this.2, .inr ⟨h1, ?_⟩⟩
    rcases he with rfl | rfl
    · exact .inl this.1
    · exact .inr this.1

example : stdStep (.remove 2) ['h', 'é', ' '] = some (.panicked, ['h', 'é', ' ']) ∧
    stdStep (.drain ⟨.included 3, .excluded 1⟩ []) ['h', 'é', ' '] = some (.panicked, ['h', 'é', ' ']) ∧
    stdStep (.splitOff 9) ['h', 'é', ' '] = some (.panicked, ['h', 'é', ' ']) := by decide

/-- C47: the exceptions are real: each of these panics on a `String` holding "hé ", but succeeds here. -/
theorem C47_exceptions :
    (stdStep (.tryInsertStr 2 []) ['h', 'é', ' '] = some (.panicked, ['h', 'é', ' ']) ∧
      (exec (N := 8) (.tryInsertStr 2 []) sample).1 = .ok .unit) ∧
    (stdStep (.insertStrTruncate 1 ['x']) ['é', 'a'] = some (.panicked, ['é', 'a']) ∧
      ∀ s : ArrayString 3, Holds s ['é', 'a'] → (exec (.insertStrTruncate 1 ['x']) s).1 = .ok .unit) ∧
    (stdStep (.replaceRange ⟨.included 50, .excluded 50⟩ []) ['h', 'é', ' '] = some (.panicked, ['h', 'é', ' ']) ∧
      (exec (N := 8) (.replaceRange ⟨.included 50, .excluded 50⟩ []) sample).1 = .ok .unit) := by
  refine ⟨⟨by decide, ?_⟩, ⟨by decide, fun s hs => ?_⟩, by decide, ?_⟩
  · exact (exec_step (N := 8) (.tryInsertStr 2 []) trivial sample _ sample_holds).1
  · exact (exec_step (N := 3) (.insertStrTruncate 1 ['x']) trivial s _ hs).1
  · refine (exec_step (N := 8) (.replaceRange ⟨.included 50, .excluded 50⟩ []) ?_ sample _ sample_holds).1.trans ?_
    · simp [Op.Ok, RangeOk, BoundOk]; have := usizeMax_ge; omega
    · simp [step, startOf, endOf]; rfl

/-- C47: where the `String` call reports invalid UTF-16, the call here does too, unless the characters
before the first unpaired surrogate already overflow: then `try_from_utf16` reports `OutOfBounds` and
`from_utf16_truncate` truncates. -/
theorem C47_utf16 (op : Op) (hop : op.Ok) (s : ArrayString N) (cs x : List Char) (f : Failure) (hs : Holds s cs)
    (h : stdStep op cs = some (.failed f, x)) :
    f = .utf16 ∧ ∃ l, (op = .tryFromUtf16 l ∨ op = .fromUtf16Truncate l) ∧
    ((byteLen (leadingChars (segment l)) ≤ N ∧ (exec op s).1 = .err .utf16 ∧ Holds (exec op s).2 cs) ∨
     (N < byteLen (leadingChars (segment l)) ∧
       ((op = .tryFromUtf16 l ∧ (exec op s).1 = .err .outOfBounds ∧ Holds (exec op s).2 cs) ∨
        (op = .fromUtf16Truncate l ∧ (exec op s).1 = .ok .unit ∧
          Holds (exec op s).2 (takeFit N (leadingChars (segment l))))))) := by
  have hx := exec_step op hop s cs hs
  cases op with
  | tryFromUtf16 l =>
    simp only [stdStep] at h
    split at h
    next => simp at h
    next hn =>
      simp at h
      refine ⟨h.1.symm, l, .inl rfl, ?_⟩
      simp only [step] at hx
      split at hx
      next hl => exact .inr ⟨hl, .inl ⟨rfl, hx⟩⟩
      next hl =>
        rw [if_neg (by simp [segChars_none hn])] at hx
        exact .inl ⟨by omega, hx⟩
  | fromUtf16Truncate l =>
    simp only [stdStep] at h
    split at h
    next => simp at h
    next hn =>
      simp at h
      refine ⟨h.1.symm, l, .inr rfl, ?_⟩
      simp only [step, segChars_none hn] at hx
      split at hx
      next hl => exact .inr ⟨by simpa using hl, .inr ⟨rfl, hx⟩⟩
      next hl => exact .inl ⟨by simpa using hl, hx⟩
  | fromIteratorTruncate ws => simp only [stdStep] at h; split at h <;> simp [stdCollect] at h; split at h <;> simp at h
  | tryFromIterator ws | collectStrs ws | tryFromChars ws | fromCharsTruncate ws | collectChars ws =>
    simp [stdStep, stdCollect] at h; split at h <;> simp at h
  | extendChars ws | extendStrs ws => simp [stdStep, stdExtend] at h; split at h <;> simp at h
  | tryInsert _ _ | tryInsertStr _ _ | insertStrTruncate _ _ =>
    simp [stdStep, stdInsert] at h; split at h <;> simp at h
  | truncate n => simp only [stdStep] at h; split at h; · simp at h
                  split at h <;> simp at h
  | remove _ | retain _ | drain _ _ | splitOff _ | replaceRange _ _ =>
    simp only [stdStep] at h; split at h <;> simp at h
  | _ => simp [stdStep] at h

example : stdStep (.tryFromUtf16 [0x41, 0xD800]) [] = some (.failed .utf16, []) := by decide

/-! ## Results that do not fit -/

/-- The calls that keep the beginning of what does not fit. -/
def Spec.Op.Truncates : Op → Prop
  | .fromStrTruncate _ | .from_ _ | .fromIteratorTruncate _ | .collectStrs _ | .fromCharsTruncate _
  | .collectChars _ | .fromUtf16Truncate _ | .fromUtf16LossyTruncate _ | .pushStrTruncate _ | .add _
  | .extendChars _ | .extendStrs _ => True
  | _ => False

/-- What is left when the result does not fit: `old` is the text before the call, `new` what `String`
has after it. -/
def Cut (n : Nat) (op : Op) (old new : List Char) : Answer × List Char → Prop :=
  match op with
  | .insertStrTruncate i w => fun x => ∃ p q, old = p ++ q ∧ byteLen p = i ∧
      x = (.returned .unit, p ++ takeFit (n - byteLen old) w ++ q)
  | .writeStr _ => fun x => x = (.failed .fmt, old)
  | .writeFmt ws => fun x => ∃ ps w qs, ws = ps ++ w :: qs ∧ byteLen (old ++ ps.flatten) ≤ n ∧
      n < byteLen (old ++ ps.flatten ++ w) ∧ x = (.failed .fmt, old ++ ps.flatten)
  | op => fun x => (op.Truncates ∧ x = (.returned .unit, takeFit n new)) ∨
      (¬ op.Truncates ∧ x = (.failed .outOfBounds, old))

omit [ValidCapacity N] in
theorem collect_all_over {cs cs' : List Char} {o : Out} {ws : Script (List Char)} {n : Nat}
    (h : stdCollect cs (drainScript ws) = (.returned o, cs')) (hf : n < byteLen cs') :
    assign cs (gatherAll n (twice ws)) = (.failed .outOfBounds, cs) := by
  cases e : drainScript ws with
  | error x => rw [e] at h; simp [stdCollect] at h
  | ok x =>
    rw [e] at h
    simp [stdCollect] at h
    obtain ⟨rfl, rfl⟩ := h
    rw [drainScript_ok e, C03_gather_all, if_neg (by omega)]; rfl

omit [ValidCapacity N] in
theorem collect_fit_over {cs cs' : List Char} {o : Out} {ws : Script (List Char)} {n : Nat}
    (h : stdCollect cs (drainScript ws) = (.returned o, cs')) :
    assign cs (gatherFit n (twice ws)) = (.returned .unit, takeFit n cs') := by
  cases e : drainScript ws with
  | error x => rw [e] at h; simp [stdCollect] at h
  | ok x =>
    rw [e] at h
    simp [stdCollect] at h
    obtain ⟨rfl, rfl⟩ := h
    rw [drainScript_ok e, C03_gather_fit]; rfl

omit [ValidCapacity N] in
theorem takeFit_push {cs w : List Char} {n : Nat} (h : byteLen cs ≤ n) :
    cs ++ takeFit (n - byteLen cs) w = takeFit n (cs ++ w) := by
  rw [takeFit_append, if_pos h]

omit [ValidCapacity N] in
theorem extend_fit_over {cs cs' : List Char} {o : Out} {ws : Script (List Char)} {n : Nat} (hn : byteLen cs ≤ n)
    (h : stdExtend cs (drainScript ws) = (.returned o, cs')) :
    (match gatherFit n (twice ws) with
      | .ok w => (.returned .unit, cs ++ takeFit (n - byteLen cs) w)
      | .error a => (a, cs)) = (Answer.returned .unit, takeFit n cs') := by
  cases e : drainScript ws with
  | error x => rw [e] at h; simp [stdExtend] at h
  | ok x =>
    rw [e] at h
    simp [stdExtend] at h
    obtain ⟨rfl, rfl⟩ := h
    rw [drainScript_ok e, C03_gather_fit]
    simp only
    rw [takeFit_takeFit (by omega), takeFit_push hn]

omit [ValidCapacity N] in
theorem insert_over {cs cs' w : List Char} {o : Out} {n i : Nat} (hn : byteLen cs ≤ n)
    (h : stdInsert i w cs = (.returned o, cs')) (hf : n < byteLen cs') :
    insertAt n i w cs = (.failed .outOfBounds, cs) := by
  unfold stdInsert at h
  split at h
  next p q hc =>
    simp at h
    obtain ⟨rfl, rfl⟩ := h
    obtain ⟨rfl, rfl⟩ := cutAt_some.1 hc
    simp at hf hn
    unfold insertAt
    rw [if_neg (by simp)]
    split
    next hw => subst hw; simp at hf; omega
    next hw =>
      split
      next => rfl
      next =>
        rw [hc]
        simp only
        rw [if_neg (by simp; omega)]
  next => simp at h

omit [ValidCapacity N] in
theorem writeAll_over {ws : List (List Char)} {cs : List Char} {n : Nat} (hn : byteLen cs ≤ n)
    (hf : n < byteLen (cs ++ ws.flatten)) :
    ∃ ps w qs, ws = ps ++ w :: qs ∧ byteLen (cs ++ ps.flatten) ≤ n ∧
      n < byteLen (cs ++ ps.flatten ++ w) ∧ writeAll n ws cs = (.failed .fmt, cs ++ ps.flatten) := by
  induction ws generalizing cs with
  | nil => simp at hf; omega
  | cons w ws ih =>
    by_cases hw : byteLen cs + byteLen w ≤ n
    · obtain ⟨ps, v, qs, rfl, h1, h2, h3⟩ := ih (cs := cs ++ w) (by simp; omega) (by simpa using hf)
      exact ⟨w :: ps, v, qs, rfl, by simpa using h1, by simpa using h2, by rw [writeAll, if_pos hw, h3]; simp⟩
    · exact ⟨[], w, ws, rfl, by simpa using hn, by simp; omega, by rw [writeAll, if_neg hw]; simp⟩

omit [ValidCapacity N] in
theorem byteLen_sublist {a b : List Char} (h : a.Sublist b) : byteLen a ≤ byteLen b := by
  induction h with
  | slnil => simp
  | cons c _ ih => simp; omega
  | cons_cons c _ ih => simp; omega

omit [ValidCapacity N] in
theorem trimText_sublist (cs : List Char) : (trimText cs).Sublist cs := by
  unfold trimText
  refine List.Sublist.trans ?_ (List.dropWhile_sublist fun c => decide (IsWhite c))
  conv => rhs; rw [← List.reverse_reverse (cs.dropWhile _)]
  exact List.reverse_sublist.2 (List.dropWhile_sublist _)

omit [ValidCapacity N] in
theorem stdRetain_sublist (f : List Char → Char → Option Bool) (seen cs : List Char) :
    (stdRetain f seen cs).2.Sublist cs := by
  induction cs generalizing seen with
  | nil => exact .slnil
  | cons c cs ih =>
    rw [stdRetain]
    split
    next => exact List.nil_sublist _
    next b _ =>
      cases b with
      | false => exact (ih _).cons c
      | true => exact (ih _).cons_cons c

omit [ValidCapacity N] in
theorem step_of_std_over (op : Op) (cs cs' : List Char) (o : Out) (hcs : byteLen cs ≤ N)
    (h : stdStep op cs = some (.returned o, cs')) (hf : N < byteLen cs') :
    Cut N op cs cs' (step N op cs) := by
  cases op with
  | new | default => simp [stdStep] at h; obtain ⟨rfl, rfl⟩ := h; simp at hf
  | tryFromStr w | parse w =>
    simp [stdStep] at h; obtain ⟨rfl, rfl⟩ := h
    exact .inr ⟨id, by simp only [step]; rw [if_neg (by omega)]⟩
  | fromStrTruncate w | from_ w =>
    simp [stdStep] at h; obtain ⟨rfl, rfl⟩ := h; exact .inl ⟨trivial, rfl⟩
  | tryFromIterator ws => exact .inr ⟨id, collect_all_over (by simpa [stdStep] using h) hf⟩
  | collectStrs ws => exact .inl ⟨trivial, collect_fit_over (by simpa [stdStep] using h)⟩
  | fromIteratorTruncate ws =>
    simp only [stdStep] at h
    split at h
    next hh =>
      have e : ws = twice (ws.map (Option.map Prod.fst)) := by
        rw [twice, List.map_map]
        conv => lhs; rw [← List.map_id ws]
        apply List.map_congr_left
        intro p hp
        cases p with
        | none => rfl
        | some q => have := hh _ hp q rfl; simp [Prod.ext_iff, this]
      have := collect_fit_over (n := N) (by simpa using h)
      rw [← e] at this
      exact .inl ⟨trivial, this⟩
    next => simp at h
  | tryFromChars w =>
    refine .inr ⟨id, ?_⟩
    simp only [step, single_eq_twice]; exact collect_all_over (by simpa [stdStep] using h) hf
  | fromCharsTruncate w | collectChars w =>
    refine .inl ⟨trivial, ?_⟩
    simp only [step, single_eq_twice]; exact collect_fit_over (by simpa [stdStep] using h)
  | tryFromUtf16 l =>
    simp only [stdStep] at h
    split at h
    next w hw =>
      simp at h; obtain ⟨rfl, rfl⟩ := h
      obtain ⟨h1, h2⟩ := segChars_some hw
      refine .inr ⟨id, ?_⟩
      simp only [step]
      rw [h2, if_pos hf]
    next => simp at h
  | fromUtf16Truncate l =>
    simp only [stdStep] at h
    split at h
    next w hw =>
      simp at h; obtain ⟨rfl, rfl⟩ := h
      obtain ⟨h1, h2⟩ := segChars_some hw
      refine .inl ⟨trivial, ?_⟩
      simp only [step]
      rw [h2, if_pos (.inr h1)]
    next => simp at h
  | fromUtf16LossyTruncate l =>
    simp [stdStep] at h; obtain ⟨rfl, rfl⟩ := h; exact .inl ⟨trivial, rfl⟩
  | tryPushStr w | tryPush w =>
    simp [stdStep] at h; obtain ⟨rfl, rfl⟩ := h; simp at hf
    exact .inr ⟨id, by simp only [step]; rw [if_neg (by omega)]⟩
  | writeStr w =>
    simp [stdStep] at h; obtain ⟨rfl, rfl⟩ := h; simp at hf
    show step N _ cs = _
    simp only [step]; rw [if_neg (by omega)]
  | pushStrTruncate w | add w =>
    simp [stdStep] at h; obtain ⟨rfl, rfl⟩ := h
    exact .inl ⟨trivial, by simp only [step]; rw [takeFit_push hcs]⟩
  | writeFmt ws => simp [stdStep] at h; obtain ⟨rfl, rfl⟩ := h; exact writeAll_over hcs hf
  | tryInsert i c => exact .inr ⟨id, insert_over hcs (by simpa [stdStep] using h) hf⟩
  | tryInsertStr i w => exact .inr ⟨id, insert_over hcs (by simpa [stdStep] using h) hf⟩
  | insertStrTruncate i w =>
    simp only [stdStep, Option.some.injEq] at h
    unfold stdInsert at h
    split at h
    next p q hc =>
      obtain ⟨rfl, hi⟩ := cutAt_some.1 hc
      refine ⟨p, q, rfl, hi, ?_⟩
      have hl := byteLen_takeFit_le (N - byteLen (p ++ q)) w
      have hz : byteLen p ≤ byteLen (p ++ q) := by simp
      show insertAt N i _ _ = _
      unfold insertAt
      rw [if_neg (by omega)]
      split
      next hw => rw [hw]; simp
      next hw =>
        rw [if_neg (by omega), hc]
        simp only
        rw [if_pos (by omega)]
    next => simp at h
  | replaceRange r w =>
    simp only [stdStep] at h
    split at h
    next p m q hc =>
      obtain ⟨hpq, ha, hb⟩ := cut2_some.1 hc
      simp only [Option.some.injEq, Prod.mk.injEq, Answer.returned.injEq] at h
      obtain ⟨rfl, rfl⟩ := h
      have hl : byteLen cs = byteLen p + (byteLen m + byteLen q) := by rw [hpq]; simp
      refine .inr ⟨id, ?_⟩
      simp only [step]
      rw [if_neg (by rintro ⟨rfl, _⟩; simp at hf; omega)]
      split
      next => rfl
      next =>
        rw [hc]
        simp only
        rw [if_neg (by omega)]
    next => simp at h
  | extendChars w =>
    refine .inl ⟨trivial, ?_⟩
    simp only [step, single_eq_twice]; exact extend_fit_over hcs (by simpa [stdStep] using h)
  | extendStrs w => exact .inl ⟨trivial, extend_fit_over hcs (by simpa [stdStep] using h)⟩
  | truncate n =>
    simp only [stdStep] at h
    split at h
    next => simp at h; obtain ⟨_, rfl⟩ := h; omega
    next =>
      split at h
      next p q hc =>
        obtain ⟨rfl, _⟩ := cutAt_some.1 hc
        simp at h; obtain ⟨_, rfl⟩ := h; simp at hcs; omega
      next => simp at h
  | pop =>
    simp [stdStep] at h; obtain ⟨_, rfl⟩ := h
    have := byteLen_sublist (List.dropLast_sublist cs); omega
  | trim =>
    simp [stdStep] at h; obtain ⟨_, rfl⟩ := h
    have := byteLen_sublist (trimText_sublist cs); omega
  | clear => simp [stdStep] at h; obtain ⟨_, rfl⟩ := h; simp at hf
  | remove i =>
    simp only [stdStep] at h
    split at h
    next p c q hc =>
      obtain ⟨rfl, _⟩ := cutAt_some.1 hc
      simp at h; obtain ⟨_, rfl⟩ := h; simp at hcs hf; omega
    next => simp at h
  | retain f =>
    simp only [stdStep] at h
    split at h
    next out hr =>
      simp at h; obtain ⟨_, rfl⟩ := h
      have := byteLen_sublist (stdRetain_sublist f [] cs)
      rw [hr] at this
      simp only at this
      omega
    next => simp at h
  | drain r es =>
    simp only [stdStep] at h
    split at h
    next p m q hc =>
      obtain ⟨rfl, _⟩ := cut2_some.1 hc
      simp at h; obtain ⟨_, rfl⟩ := h; simp at hcs hf; omega
    next => simp at h
  | splitOff i =>
    simp only [stdStep] at h
    split at h
    next p q hc =>
      obtain ⟨rfl, _⟩ := cutAt_some.1 hc
      simp at h; obtain ⟨_, rfl⟩ := h; simp at hcs; omega
    next => simp at h
  | asMutStr e => simp [stdStep] at h; obtain ⟨_, rfl⟩ := h; have := e.keeps cs; omega
  | asStr | asBytes | display | len | isEmpty | eqStr _ | hash =>
    simp [stdStep] at h; obtain ⟨_, rfl⟩ := h; omega
  | capacity | index _ | indexMut _ _ => simp [stdStep] at h

/-- C47: where the `String` call returns but the resulting text does not fit, the call on the `ArrayString`
fails with `OutOfBounds` and changes nothing; the truncating calls keep the longest beginning of the text
that fits (`insert_str_truncate` the longest beginning of what is inserted), and the calls of `fmt::Write`
fail with `fmt::Error`, with the pieces before the one that does not fit written. -/
theorem C47_overflows (op : Op) (hop : op.Ok) (s : ArrayString N) (cs cs' : List Char) (o : Out) (hs : Holds s cs)
    (h : stdStep op cs = some (.returned o, cs')) (hf : N < byteLen cs') :
    ∃ a t, Cut N op cs cs' (a, t) ∧ (exec op s).1 = a.toRes ∧ Holds (exec op s).2 t := by
  have := exec_step op hop s cs hs
  exact ⟨_, _, step_of_std_over op cs cs' o hs.le h hf, this⟩

/-- Calls that grow "hé " past 8 bytes, and what is left. -/
example : ∀ x ∈ [(Op.tryPushStr ['€', '€'], Answer.failed .outOfBounds, ['h', 'é', ' ']),
      (.pushStrTruncate ['€', '€'], .returned .unit, ['h', 'é', ' ', '€']),
      (.insertStrTruncate 1 ['€', '€'], .returned .unit, ['h', '€', 'é', ' ']),
      (.replaceRange ⟨.included 0, .excluded 1⟩ ['€', '€'], .failed .outOfBounds, ['h', 'é', ' ']),
      (.writeFmt [['a', 'b'], ['€'], ['c']], .failed .fmt, ['h', 'é', ' ', 'a', 'b']),
      (.extendStrs [some ['€'], some ['€']], .returned .unit, ['h', 'é', ' ', '€']),
      (.collectChars (List.replicate 9 (some 'x')), .returned .unit, List.replicate 8 'x')],
    (∃ o cs', stdStep x.1 ['h', 'é', ' '] = some (.returned o, cs') ∧ 8 < byteLen cs') ∧
    step 8 x.1 ['h', 'é', ' '] = x.2 := by
  simp only [List.forall_mem_cons]
  refine ⟨?_, ?_, ?_, ?_, ?_, ?_, ?_, nofun⟩
  all_goals exact ⟨⟨_, _, rfl, by decide⟩, by decide⟩

/-! ## Iterators and predicates that panic -/

/-- What the iterator yields before it panics. -/
def yielded {α : Type} : Script α → List α
  | some a :: l => a :: yielded l
  | _ => []

/-- The text that the call has been given when the caller's iterator panics. -/
def Spec.Op.given : Op → List Char
  | .tryFromIterator ws | .collectStrs ws | .extendStrs ws => (yielded ws).flatten
  | .fromIteratorTruncate ws => ((yielded ws).map Prod.fst).flatten
  | .tryFromChars w | .fromCharsTruncate w | .collectChars w | .extendChars w => yielded w
  | _ => []

/-- What the call leaves if it never sees the panic. -/
def Spec.Op.unaware (n : Nat) (op : Op) (old : List Char) : Answer × List Char :=
  match op with
  | .tryFromIterator _ | .tryFromChars _ => (.failed .outOfBounds, old)
  | .extendChars _ | .extendStrs _ => (.returned .unit, takeFit n (old ++ op.given))
  | _ => (.returned .unit, takeFit n op.given)

omit [ValidCapacity N] in
theorem yielded_split {l : Script α} (h : none ∈ l) : ∃ r, l = (yielded l).map some ++ none :: r := by
  induction l with
  | nil => cases h
  | cons a l ih =>
    cases a with
    | none => exact ⟨l, rfl⟩
    | some a =>
      obtain ⟨r, hr⟩ := ih (by simpa using h)
      exact ⟨r, by rw [yielded, List.map_cons, List.cons_append, ← hr]⟩

omit [ValidCapacity N] in
theorem gather_panics (n : Nat) (ws : List (List Char)) (r : Script (List Char)) :
    (byteLen ws.flatten ≤ n → (gather n (twice (ws.map some ++ none :: r))).2 = .panicked) ∧
    (n < byteLen ws.flatten → gather n (twice (ws.map some ++ none :: r)) = gather n (twice (ws.map some))) := by
  induction ws generalizing n with
  | nil => exact ⟨fun _ => rfl, fun h => by simp at h⟩
  | cons w ws ih =>
    obtain ⟨i1, i2⟩ := ih (n - byteLen w)
    simp only [List.map_cons, List.cons_append, twice, Option.map_some, gather, List.flatten_cons,
      byteLen_append] at i1 i2 ⊢
    by_cases hw : byteLen w ≤ n
    · simp only [if_pos hw]
      exact ⟨fun h => i1 (by omega), fun h => by rw [i2 (by omega)]⟩
    · simp only [if_neg hw]
      exact ⟨fun h => by omega, fun _ => trivial⟩

omit [ValidCapacity N] in
theorem gathers_panic {n : Nat} {ws : Script (List Char)} (h : none ∈ ws) :
    gatherAll n (twice ws) =
      (if byteLen (yielded ws).flatten ≤ n then .error .panicked else .error (.failed .outOfBounds)) ∧
    gatherFit n (twice ws) =
      if byteLen (yielded ws).flatten ≤ n then .error .panicked else .ok (takeFit n (yielded ws).flatten) := by
  obtain ⟨r, hr⟩ := yielded_split h
  obtain ⟨h1, h2⟩ := gather_panics n (yielded ws) r
  rw [← hr] at h1 h2
  by_cases hn : byteLen (yielded ws).flatten ≤ n
  · rw [if_pos hn, if_pos hn, gatherAll_eq, gatherFit_eq, h1 hn]
    exact ⟨rfl, rfl⟩
  · have := h2 (by omega)
    rw [if_neg hn, if_neg hn, gatherAll_eq, gatherFit_eq, this, ← gatherAll_eq, ← gatherFit_eq,
      C03_gather_all, C03_gather_fit, if_neg hn]
    exact ⟨rfl, rfl⟩

omit [ValidCapacity N] in
theorem yielded_map {β : Type} (f : α → β) (l : Script α) : yielded (l.map (Option.map f)) = (yielded l).map f := by
  induction l with
  | nil => rfl
  | cons a l ih =>
    cases a with
    | none => rfl
    | some a => simp [yielded, ih]

omit [ValidCapacity N] in
theorem yielded_single (w : Script Char) : (yielded (w.map (Option.map fun c => [c]))).flatten = yielded w := by
  rw [yielded_map]
  induction yielded w with
  | nil => rfl
  | cons c w ih => simp [ih]

omit [ValidCapacity N] in
theorem none_mem_map {β : Type} {f : α → β} {l : Script α} : none ∈ l.map (Option.map f) ↔ none ∈ l := by
  simp

omit [ValidCapacity N] in
theorem step_of_caller_panic (op : Op) (hc : ¬ op.Calm) (cs x : List Char) (hcs : byteLen cs ≤ N)
    (h : stdStep op cs = some (.panicked, x)) :
    step N op cs = if byteLen op.given ≤ N then (.panicked, cs) else op.unaware N cs := by
  cases op with
  | tryFromIterator ws =>
    simp only [Op.Calm, Classical.not_not] at hc
    have hg := (gathers_panic (n := N) hc).1
    show assign cs _ = ite (byteLen (yielded ws).flatten ≤ N) _ _
    rw [hg]
    by_cases hn : byteLen (yielded ws).flatten ≤ N
    · rw [if_pos hn, if_pos hn]; rfl
    · rw [if_neg hn, if_neg hn]; rfl
  | collectStrs ws =>
    simp only [Op.Calm, Classical.not_not] at hc
    have hg := (gathers_panic (n := N) hc).2
    show assign cs _ = ite (byteLen (yielded ws).flatten ≤ N) _ _
    rw [hg]
    by_cases hn : byteLen (yielded ws).flatten ≤ N
    · rw [if_pos hn, if_pos hn]; rfl
    · rw [if_neg hn, if_neg hn]; rfl
  | fromIteratorTruncate ws =>
    simp only [Op.Calm, Classical.not_not] at hc
    simp only [stdStep] at h
    split at h
    next hh =>
      have e : ws = twice (ws.map (Option.map Prod.fst)) := by
        rw [twice, List.map_map]
        conv => lhs; rw [← List.map_id ws]
        apply List.map_congr_left
        intro p hp
        cases p with
        | none => rfl
        | some q => have := hh _ hp q rfl; simp [Prod.ext_iff, this]
      have := (gathers_panic (n := N) (none_mem_map (f := Prod.fst).2 hc)).2
      rw [← e, yielded_map] at this
      show assign cs (gatherFit N ws) = ite (byteLen ((yielded ws).map Prod.fst).flatten ≤ N) _ _
      rw [this]
      by_cases hn : byteLen ((yielded ws).map Prod.fst).flatten ≤ N
      · rw [if_pos hn, if_pos hn]; rfl
      · rw [if_neg hn, if_neg hn]; rfl
    next => simp at h
  | tryFromChars w =>
    simp only [Op.Calm, Classical.not_not] at hc
    have hg := (gathers_panic (n := N) (none_mem_map (f := fun c => [c]).2 hc)).1
    rw [yielded_single, ← single_eq_twice] at hg
    show assign cs _ = ite (byteLen (yielded w) ≤ N) _ _
    rw [hg]
    by_cases hn : byteLen (yielded w) ≤ N
    · rw [if_pos hn, if_pos hn]; rfl
    · rw [if_neg hn, if_neg hn]; rfl
  | fromCharsTruncate w | collectChars w =>
    simp only [Op.Calm, Classical.not_not] at hc
    have hg := (gathers_panic (n := N) (none_mem_map (f := fun c => [c]).2 hc)).2
    rw [yielded_single, ← single_eq_twice] at hg
    show assign cs _ = ite (byteLen (yielded w) ≤ N) _ _
    rw [hg]
    by_cases hn : byteLen (yielded w) ≤ N
    · rw [if_pos hn, if_pos hn]; rfl
    · rw [if_neg hn, if_neg hn]; rfl
  | extendChars w =>
    simp only [Op.Calm, Classical.not_not] at hc
    have hg := (gathers_panic (n := N) (none_mem_map (f := fun c => [c]).2 hc)).2
    rw [yielded_single] at hg
    show (match gatherFit N (single w) with | .ok w => _ | .error a => _) = ite (byteLen (yielded w) ≤ N) _ _
    rw [single_eq_twice, hg]
    by_cases hn : byteLen (yielded w) ≤ N
    · rw [if_pos hn, if_pos hn]
    · rw [if_neg hn, if_neg hn]
      simp only [Op.unaware, Op.given]
      rw [takeFit_takeFit (by omega), takeFit_push hcs]
  | extendStrs ws =>
    simp only [Op.Calm, Classical.not_not] at hc
    have hg := (gathers_panic (n := N) hc).2
    show (match gatherFit N (twice ws) with | .ok w => _ | .error a => _) = ite (byteLen (yielded ws).flatten ≤ N) _ _
    rw [hg]
    by_cases hn : byteLen (yielded ws).flatten ≤ N
    · rw [if_pos hn, if_pos hn]
    · rw [if_neg hn, if_neg hn]
      simp only [Op.unaware, Op.given]
      rw [takeFit_takeFit (by omega), takeFit_push hcs]
  | retain f =>
    simp only [stdStep] at h
    split at h
    next => simp at h
    next out hr => simp [step, (stdRetain_keep f [] cs).2 _ hr, Op.given]
  | index i => simp [stdStep] at h
  | indexMut i e => simp [stdStep] at h
  | _ => exact absurd trivial hc

/-- What a `String` holds after a panic of the caller: what `extend` was given has been pushed, `retain` has
kept what it accepted before the panic and dropped the rest, and a constructor has assigned nothing. -/
def Spec.Op.StdLeft (op : Op) (old x : List Char) : Prop :=
  match op with
  | .extendChars _ | .extendStrs _ => x = old ++ op.given
  | .retain f => ∃ pre c post, old = pre ++ c :: post ∧ f pre c = none ∧
      (∀ a d b, pre = a ++ d :: b → f a d ≠ none) ∧
      x = (pre.zipIdx.filter fun p => f (pre.take p.2) p.1 == some true).map Prod.fst
  | _ => x = old

omit [ValidCapacity N] in
theorem drainScript_yielded {l : Script α} {as : List α} (h : drainScript l = .error as) : as = yielded l := by
  induction l generalizing as with
  | nil => simp [drainScript] at h
  | cons a l ih =>
    cases a with
    | none => simp [drainScript] at h; exact h
    | some a =>
      rw [drainScript] at h
      cases e : drainScript l with
      | ok x => rw [e] at h; simp at h
      | error x => rw [e] at h; simp at h; subst h; rw [yielded, ← ih e]

omit [ValidCapacity N] in
theorem stdRetain_panic (f : List Char → Char → Option Bool) (seen cs x : List Char)
    (h : stdRetain f seen cs = (none, x)) : ∃ pre c post, cs = pre ++ c :: post ∧ f (seen ++ pre) c = none ∧
      (∀ a d b, pre = a ++ d :: b → f (seen ++ a) d ≠ none) ∧
      x = (pre.zipIdx.filter fun p => f (seen ++ pre.take p.2) p.1 == some true).map Prod.fst := by
  induction cs generalizing seen x with
  | nil => simp [stdRetain] at h
  | cons c cs ih =>
    rw [stdRetain] at h
    cases hf : f seen c with
    | none =>
      rw [hf] at h
      simp at h
      exact ⟨[], c, cs, rfl, by simpa using hf, by simp, by simp [h]⟩
    | some b =>
      rcases hr : stdRetain f (seen ++ [c]) cs with ⟨r, out⟩
      rw [hf, hr] at h
      simp only [Prod.mk.injEq] at h
      obtain ⟨rfl, h2⟩ := h
      obtain ⟨pre, d, post, e1, e2, e3, e4⟩ := ih (seen ++ [c]) _ hr
      refine ⟨c :: pre, d, post, by simp [e1], by simpa using e2, ?_, ?_⟩
      · intro a d' b' e
        cases a with
        | nil => simp at e; obtain ⟨rfl, rfl⟩ := e; simp [hf]
        | cons a0 a =>
          simp at e
          obtain ⟨rfl, rfl⟩ := e
          simpa using e3 a d' b' rfl
      · rw [← h2, e4]
        simp only [List.zipIdx_cons, List.filter_cons, List.take_zero, List.append_nil, hf]
        have : (pre.zipIdx (0 + 1)).filter (fun p => f (seen ++ (c :: pre).take p.2) p.1 == some true) =
            (pre.zipIdx.filter fun p => f (seen ++ [c] ++ pre.take p.2) p.1 == some true).map (fun p => (p.1, p.2 + 1)) := by
          rw [List.zipIdx_succ, List.filter_map]
          congr 1
          apply List.filter_congr
          rintro ⟨a, n⟩ _
          simp only [Function.comp_def, List.take_succ_cons, List.append_assoc, List.singleton_append]
        rw [this]
        cases b <;> simp [Function.comp_def]

omit [ValidCapacity N] in
theorem stdLeft (op : Op) (hc : ¬ op.Calm) (cs x : List Char) (h : stdStep op cs = some (.panicked, x)) :
    op.StdLeft cs x := by
  have hcol : ∀ ws, stdCollect cs (drainScript ws) = (.panicked, x) → x = cs := by
    intro ws h
    cases e : drainScript ws with
    | error y => rw [e] at h; simp [stdCollect] at h; exact h.symm
    | ok y => rw [e] at h; simp [stdCollect] at h
  have hext : ∀ ws, stdExtend cs (drainScript ws) = (.panicked, x) → x = cs ++ (yielded ws).flatten := by
    intro ws h
    cases e : drainScript ws with
    | error y => rw [e] at h; simp [stdExtend] at h; rw [← drainScript_yielded e, h]
    | ok y => rw [e] at h; simp [stdExtend] at h
  cases op with
  | tryFromIterator ws | collectStrs ws => exact hcol _ (by simpa [stdStep] using h)
  | fromIteratorTruncate ws =>
    simp only [stdStep] at h
    split at h
    next => exact hcol _ (by simpa using h)
    next => simp at h
  | tryFromChars w | fromCharsTruncate w | collectChars w => exact hcol _ (by simpa [stdStep] using h)
  | extendChars w =>
    have := hext _ (by simpa [stdStep] using h)
    rw [yielded_single] at this
    exact this
  | extendStrs ws => exact hext _ (by simpa [stdStep] using h)
  | retain f =>
    simp only [stdStep] at h
    split at h
    next => simp at h
    next out hr =>
      simp at h; subst h
      have := stdRetain_panic f [] cs _ hr
      simp only [List.nil_append] at this
      exact this
  | index i => simp [stdStep] at h
  | indexMut i e => simp [stdStep] at h
  | _ => exact absurd trivial hc

/-- C47: where the `String` call panics because an iterator or a predicate of the caller panics, the call on
the `ArrayString` panics too and leaves the text as it was, while `String::extend` keeps what it was given
and `String::retain` what it had accepted.  If what the iterator yields before does not fit, the call
does not get to see the panic: it fails with `OutOfBounds` or truncates, as it would without. -/
theorem C47_caller_panics (op : Op) (hop : op.Ok) (hc : ¬ op.Calm) (s : ArrayString N) (cs x : List Char)
    (hs : Holds s cs) (h : stdStep op cs = some (.panicked, x)) :
    (byteLen op.given ≤ N → (exec op s).1 = .panic ∧ Holds (exec op s).2 cs) ∧
    (N < byteLen op.given → (exec op s).1 = (op.unaware N cs).1.toRes ∧
      Holds (exec op s).2 (op.unaware N cs).2) ∧
    op.StdLeft cs x := by
  have hx := exec_step op hop s cs hs
  rw [step_of_caller_panic op hc cs x hs.le h] at hx
  refine ⟨fun hn => ?_, fun hn => ?_, stdLeft op hc cs x h⟩
  · rw [if_pos hn] at hx; exact hx
  · rw [if_neg (by omega)] at hx; exact hx

example : ∀ x ∈ [(Op.extendStrs [some ['a'], some ['b'], none], ['h', 'é', ' ', 'a', 'b']),
      (.retain fun seen c => if seen.length = 2 then none else some (c = 'é'), ['é']),
      (.collectStrs [some ['a'], none, some ['b']], ['h', 'é', ' '])],
    stdStep x.1 ['h', 'é', ' '] = some (.panicked, x.2) ∧
    step 8 x.1 ['h', 'é', ' '] = (.panicked, ['h', 'é', ' ']) := by decide

/-- Too much before the panic. -/
example : stdStep (.extendChars (List.replicate 9 (some 'x') ++ [none])) ['h'] =
      some (.panicked, 'h' :: List.replicate 9 'x') ∧
    step 8 (.extendChars (List.replicate 9 (some 'x') ++ [none])) ['h'] =
      (.returned .unit, 'h' :: List.replicate 7 'x') ∧
    step 8 (.tryFromChars (List.replicate 9 (some 'x') ++ [none])) ['h'] = (.failed .outOfBounds, ['h']) := by decide

end Verif
