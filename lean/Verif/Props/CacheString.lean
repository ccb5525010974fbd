import Verif.Model.CacheString
import Verif.Props.History

/-! # `CacheString` is `ArrayString<63>` -/

namespace Verif
open Spec

variable {ε κ ω η α : Type}

/-! ## The two drivers -/

namespace CacheString

theorem derefMut_apply (m : M (ArrayString 63) ε α) (c : CacheString) :
    derefMut m c = ((m c.inner).1, ⟨(m c.inner).2⟩) := rfl

theorem call_derefMut [Kind ε] (m : M (ArrayString 63) ε α) (out : α → Out) (s : ArrayString 63) :
    call (derefMut m) out ⟨s⟩ = ((Verif.call m out s).1, ⟨(Verif.call m out s).2⟩) := by
  unfold call Verif.call
  simp only [M.bind_apply, M.mapErr_apply, derefMut_apply]
  rcases m s with ⟨r, s'⟩
  cases r <;> rfl

theorem construct_wrap [Kind ε] (r : Res ε (ArrayString 63)) (s : ArrayString 63) :
    construct (do let a ← r; pure (⟨a⟩ : CacheString)) id ⟨s⟩ =
      ((Verif.construct r id s).1, ⟨(Verif.construct r id s).2⟩) := by
  cases r <;> rfl

theorem construct_wrap_fst [Kind ε] (r : Res ε (ArrayString 63 × κ)) (s : ArrayString 63) :
    construct (do let (a, k) ← r; pure ((⟨a⟩ : CacheString), k)) Prod.fst ⟨s⟩ =
      ((Verif.construct r Prod.fst s).1, ⟨(Verif.construct r Prod.fst s).2⟩) := by
  cases r <;> rfl

theorem query_deref [Kind ε] (f : ArrayString 63 → Res ε α) (out : α → Out) (s : ArrayString 63) :
    query (fun c => f c.inner) out ⟨s⟩ = ((Verif.query f out s).1, ⟨(Verif.query f out s).2⟩) := by
  unfold query Verif.query
  simp only [M.bind_apply, M.self_apply, M.lift_apply]
  cases f s <;> rfl

theorem derefMut_bind {β : Type} (m : M (ArrayString 63) ε α) (f : α → M (ArrayString 63) ε β) :
    derefMut (m >>= f) = derefMut m >>= fun a => derefMut (f a) := by
  funext c
  simp only [M.bind_apply, derefMut_apply]
  rcases m c.inner with ⟨r, s'⟩
  cases r <;> rfl

theorem derefMut_lift (r : Res ε α) : derefMut (M.lift r) = M.lift r := rfl
theorem derefMut_pure (a : α) : derefMut (pure a : M (ArrayString 63) ε α) = pure a := rfl

theorem writeFmt_derefMut (ws : List (List Char)) :
    writeFmt (ws.map fun w => .lit (utf8 w)) = derefMut (ArrayString.writeFmt (ws.map fun w => .lit (utf8 w))) := by
  induction ws with
  | nil => rfl
  | cons w ws ih =>
    simp only [writeFmt, ArrayString.writeFmt, List.map_cons, Fmt.write] at ih ⊢
    by_cases h : (utf8 w).isEmpty = true
    · simp only [h, if_true]; exact ih
    · rw [if_neg h, if_neg h, derefMut_bind, ih]; rfl

end CacheString

open CacheString

/-- C37: every call on a `CacheString` is the same call on the `ArrayString<63>` inside. -/
theorem C37_call (op : Op) (s : ArrayString 63) :
    CacheString.exec op ⟨s⟩ = ((exec op s).1, ⟨(exec op s).2⟩) := by
  cases op with
  | new => rfl
  | default => rfl
  | tryFromStr w => exact construct_wrap _ s
  | parse w => exact construct_wrap (ArrayString.tryFromStr (utf8 w)) s
  | fromStrTruncate w => exact construct_wrap _ s
  | from_ w => exact construct_wrap _ s
  | tryFromIterator ws => exact construct_wrap_fst _ s
  | fromIteratorTruncate ws => exact construct_wrap_fst _ s
  | collectStrs ws => exact construct_wrap_fst _ s
  | tryFromChars ws => exact construct_wrap_fst _ s
  | fromCharsTruncate ws => exact construct_wrap_fst _ s
  | collectChars ws => exact construct_wrap_fst _ s
  | tryFromUtf16 l => exact construct_wrap _ s
  | fromUtf16Truncate l => exact construct_wrap _ s
  | fromUtf16LossyTruncate l => exact construct_wrap _ s
  | drain r es =>
    refine Eq.trans ?_ (call_derefMut (ε := Error) (do
      let d ← ArrayString.drain r
      let (os, d) ← M.lift ((drainEnds es).onLocal d)
      let b ← M.lift d.asStr
      pure (os, b)) (fun p => .drained p.1 p.2) s)
    rw [derefMut_bind]
    show CacheString.call _ _ _ = CacheString.call _ _ _
    congr 1
    congr 1
    funext d c
    simp only [derefMut_bind, derefMut_lift, M.bind_apply, M.lift_apply]
    cases (drainEnds es).onLocal d with
    | ok p => simp only [derefMut_pure]
    | _ => rfl
  | splitOff i =>
    refine Eq.trans ?_ (call_derefMut (ε := Error) (do
      let t ← ArrayString.splitOff i
      M.lift t.asStr) .str s)
    rw [derefMut_bind]
    show CacheString.call _ _ _ = CacheString.call _ _ _
    congr 1
    unfold CacheString.splitOff
    funext c
    simp only [M.bind_apply]
    rcases derefMut (ArrayString.splitOff i) c with ⟨r, c'⟩
    cases r <;> rfl
  | add w =>
    unfold CacheString.exec exec
    simp only [M.bind_apply, M.self_apply]
    exact construct_wrap _ s
  | writeFmt ws =>
    unfold CacheString.exec exec
    simp only []
    rw [writeFmt_derefMut]
    exact call_derefMut _ _ s
  | index i => exact query_deref (fun s => s.index i) _ s
  | asStr => exact query_deref _ _ s
  | asBytes => exact query_deref _ _ s
  | display => exact query_deref (fun s => do
      let ((), out) ← (s.display collect {}).onLocal []
      pure out) _ s
  | len => exact query_deref (fun s => .ok s.len) _ s
  | isEmpty => exact query_deref _ _ s
  | capacity => exact query_deref (fun _ => .ok (ArrayString.capacity 63)) _ s
  | eqStr w => exact query_deref (fun s => s.eqStr (utf8 w)) _ s
  | hash => exact query_deref (fun s => s.hash traceHasher []) _ s
  | _ => exact call_derefMut _ _ s

/-- C37: so is every history of calls. -/
theorem C37_history (ops : List Op) (s : ArrayString 63) :
    CacheString.runOps ops ⟨s⟩ = ((runOps ops s).1, ⟨(runOps ops s).2⟩) := by
  induction ops generalizing s with
  | nil => rfl
  | cons op ops ih => simp only [CacheString.runOps, runOps, C37_call, ih]

/-- C37: hence any history of calls on a `CacheString` is the same history on a text bounded by 63
bytes. -/
theorem C37_refinement (ops : List Op) (hops : ∀ op ∈ ops, op.Ok) (c : CacheString) (cs : List Char)
    (hc : Holds c.inner cs) :
    (CacheString.runOps ops c).1 = (steps 63 ops cs).1.map Answer.toRes ∧
    Holds (CacheString.runOps ops c).2.inner (steps 63 ops cs).2 := by
  obtain ⟨s⟩ := c
  rw [C37_history]
  exact C03_refinement ops hops s cs hc

/-- A `CacheString` holding `"hé"`, with stale bytes behind. -/
def cacheSample : CacheString := ⟨⟨[104, 195, 169] ++ List.replicate 60 0x80, 3⟩⟩

theorem cacheSample_holds : Holds cacheSample.inner ['h', 'é'] := by decide

example : steps 63 [.pushStrTruncate (List.replicate 40 'é'), .capacity, .len, .tryPush 'x', .truncate 1, .asStr]
    ['h', 'é'] =
    ([.returned .unit, .returned (.nat 63), .returned (.nat 63), .failed .outOfBounds, .returned .unit,
      .returned (.str (utf8 ['h']))], ['h']) := by decide

/-- What a constructor of `ArrayString<63>` returns, with the string wrapped. -/
def wrapFst : Res ε (ArrayString 63 × κ) → Res ε (CacheString × κ)
  | .ok (a, k) => .ok (⟨a⟩, k)
  | .err e => .err e
  | .panic => .panic
  | .ub => .ub
  | .diverge => .diverge

/-- What a method of `ArrayString<63>` does to the string inside. -/
def onWrapped (m : M (ArrayString 63) ε α) (c : CacheString) : Res ε α × CacheString :=
  ((m c.inner).1, ⟨(m c.inner).2⟩)

/-- C37: the traits that read two strings, or a string and a sink or hasher. -/
theorem C37_traits (c d : CacheString) (cs ds : List Char) (hc : Holds c.inner cs) (hd : Holds d.inner ds)
    (H : Hasher η) (h : η) (sk : Sink ω) (o : FmtOpts) :
    (c.eq d : Res ε Bool) = .ok (decide (cs = ds)) ∧
    (c.eqStr (utf8 ds) : Res ε Bool) = .ok (decide (cs = ds)) ∧
    (c.eqStrRef ⟨utf8 ds⟩ : Res ε Bool) = .ok (decide (cs = ds)) ∧
    (c.cmp d : Res ε Ordering) = .ok (cmpText cs ds) ∧
    (c.partialCmp d : Res ε (Option Ordering)) = .ok (some (cmpText cs ds)) ∧
    (c.hash H h : Res ε η) = .ok (Str.hash H (utf8 cs) h) ∧
    c.display sk o = sk.writeStr (utf8 cs) ∧
    (c.asRefStr : Res ε Bytes) = .ok (utf8 cs) ∧
    (c.asRefBytes : Res ε Bytes) = .ok (utf8 cs) ∧
    (c.borrow : Res ε Bytes) = .ok (utf8 cs) := by
  refine ⟨(C28_eq _ _ _ _ hc hd).1, (C28_eq _ _ _ _ hc hd).2.1, (C28_eq _ _ _ _ hc hd).2.2.1,
    (C30_cmp _ _ _ _ hc hd).1, ?_,
    (C29_hash _ _ _ _ hc).1, C32_display _ _ _ _ hc, hc.asRefStr, hc.asRefBytes, hc.asStr⟩
  have e := (C30_cmp (ε := ε) _ _ _ _ hc hd).1
  simp only [CacheString.partialCmp, CacheString.cmp, e]
  rfl

example : (cacheSample.eq ⟨⟨List.replicate 63 104, 1⟩⟩ : Res Unit Bool) = .ok false := by
  have : Holds (⟨List.replicate 63 104, 1⟩ : ArrayString 63) ['h'] := by decide
  simpa using (C37_traits (ε := Unit) cacheSample ⟨_⟩ _ _ cacheSample_holds this traceHasher [] collect {}).1

/-- C37: wrapping and unwrapping, copying, the empty strings and the capacity. -/
theorem C37_wrap (a : ArrayString 63) (c : CacheString) :
    (CacheString.fromArray a).deref = a ∧ CacheString.fromArray c.deref = c ∧ c.clone = c ∧
    CacheString.new.deref = ArrayString.new ∧ CacheString.default = CacheString.new ∧
    Holds CacheString.new.inner [] ∧ CacheString.capacity = 63 ∧ CacheString.capacity = ArrayString.capacity 63 :=
  ⟨rfl, rfl, rfl, rfl, rfl, holds_new, rfl, rfl⟩

/-- C37: `write!` of any format string into a `CacheString`, also one whose arguments write in several
pieces. -/
theorem C37_write_texts (ws : List (List Char)) (c : CacheString) :
    writeTexts CacheString.sink ws c =
      ((writeTexts ArrayString.sink ws c.inner).1, ⟨(writeTexts ArrayString.sink ws c.inner).2⟩) := by
  have : writeTexts CacheString.sink ws = derefMut (writeTexts ArrayString.sink ws) := by
    induction ws with
    | nil => rfl
    | cons w ws ih => simp only [writeTexts, ih, derefMut_bind]; rfl
  rw [this]; rfl

/-- C37: constructors and `extend` with any iterator whatever (histories have finite ones), and the
mutable borrows of the text. -/
theorem C37_iterators (it : Iter κ Char) (itr : Iter κ (Ref Char)) (its : Iter κ ArrayString.AsRefTwice) (itb : Iter κ Bytes)
    (k : κ) (edit : Bytes → Bytes) (c : CacheString) :
    CacheString.tryFromChars it k = wrapFst (ArrayString.tryFromChars it k) ∧
    (CacheString.fromCharsTruncate it k : Res ε _) = wrapFst (ArrayString.fromCharsTruncate it k) ∧
    (CacheString.fromIterChars it k : Res ε _) = wrapFst (ArrayString.fromIterChars it k) ∧
    CacheString.tryFromIterator itb k = wrapFst (ArrayString.tryFromIterator itb k) ∧
    (CacheString.fromIteratorTruncate its k : Res ε _) = wrapFst (ArrayString.fromIteratorTruncate its k) ∧
    (CacheString.fromIterStrs its k : Res ε _) = wrapFst (ArrayString.fromIterStrs its k) ∧
    (CacheString.extendChars it k : M _ ε κ) c = onWrapped (ArrayString.extendChars it k) c ∧
    (CacheString.extendCharRefs itr k : M _ ε κ) c = onWrapped (ArrayString.extendCharRefs itr k) c ∧
    (CacheString.extendStrs its k : M _ ε κ) c = onWrapped (ArrayString.extendStrs its k) c ∧
    (CacheString.asMut edit : M _ ε Unit) c = onWrapped (ArrayString.asMut edit) c ∧
    (CacheString.borrowMut edit : M _ ε Unit) c = onWrapped (ArrayString.borrowMut edit) c := by
  have h : ∀ {δ : Type} (r : Res δ (ArrayString 63 × κ)),
      (do let (a, k) ← r; pure ((⟨a⟩ : CacheString), k) : Res δ _) = wrapFst r := by
    intro δ r; cases r <;> rfl
  exact ⟨h _, h _, h _, h _, h _, h _, rfl, rfl, rfl, rfl, rfl⟩

/-! ## Debug -/

/-- C51: `Debug` of a `CacheString` and of a `Drain` depends on the text only. -/
theorem C51_debug_wrapped {N : Nat} (dbgStr : Bytes → Fmt.Dbg) (dbgU8 : UInt8 → Fmt.Dbg) (cs : List Char)
    (sk : Sink ω) (o : FmtOpts) :
    (∀ c d : CacheString, Holds c.inner cs → Holds d.inner cs → c.debug dbgStr dbgU8 sk o = d.debug dbgStr dbgU8 sk o) ∧
    (∀ c d : ArrayString.Drain N, Holds c.inner cs → Holds d.inner cs →
      c.debug dbgStr dbgU8 sk o = d.debug dbgStr dbgU8 sk o) := by
  have key : ∀ {K : Nat} (s t : ArrayString K), Holds s cs → Holds t cs →
      (s.debug dbgStr dbgU8 : Fmt.Dbg) = @ArrayString.debug K dbgStr dbgU8 t := by
    intro K s t hs ht
    funext ω sk o
    exact C51_debug_text dbgStr dbgU8 s t cs hs ht sk o
  constructor
  · intro c d hc hd
    unfold CacheString.debug
    rw [key _ _ hc hd]
  · intro c d hc hd
    unfold ArrayString.Drain.debug
    rw [key _ _ hc hd]

end Verif
