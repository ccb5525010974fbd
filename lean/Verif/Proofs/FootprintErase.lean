import Verif.Model.Footprint

/-! Recording the accesses changes nothing else. -/

namespace Verif.Borrow
open Spec

variable {R : Rules} {N : Nat} {ε ε' α β : Type} {self arg t : Tag} {lo hi : Nat}

/-- Forget the marks. -/
def erase (w : World (traced R) N) : World R N := ⟨w.str, fun l => (w.mem l).1, w.next⟩

/-- `m` does what `m'` does, and marks the bytes. -/
def Erases (m : M (World (traced R) N) ε α) (m' : M (World R N) ε α) : Prop :=
  ∀ w, m' (erase w) = ((m w).1, erase (m w).2)

theorem er_pure {a : α} : Erases (pure a : M (World (traced R) N) ε α) (pure a) := fun _ => rfl

theorem er_lift {r : Res ε α} : Erases (M.lift r : M (World (traced R) N) ε α) (M.lift r) := fun _ => rfl

theorem er_try [ErrFrom ε ε'] {r : Res ε α} :
    Erases (M.try_ r : M (World (traced R) N) ε' α) (M.try_ r) := fun _ => rfl

theorem er_get : Erases (get : M (World (traced R) N) ε _) get := fun _ => rfl

theorem er_put {s : ArrayString N} : Erases (put s : M (World (traced R) N) ε _) (put s) := fun _ => rfl

theorem er_plain {p : M (ArrayString N) ε α} : Erases (plain p : M (World (traced R) N) ε _) (plain p) := fun _ => rfl

theorem er_fresh : Erases (fresh : M (World (traced R) N) ε _) fresh := fun _ => rfl

theorem er_bind {m : M (World (traced R) N) ε α} {m' : M (World R N) ε α} {f : α → M (World (traced R) N) ε β}
    {f' : α → M (World R N) ε β} (h : Erases m m') (hf : ∀ a, Erases (f a) (f' a)) : Erases (m >>= f) (m' >>= f') := by
  intro w
  show M.bind m' f' _ = ((M.bind m f w).1, erase (M.bind m f w).2)
  rw [M.bind, M.bind, h w]
  generalize m w = x
  rcases x with ⟨_ | _ | _ | _ | _, _⟩ <;> first | exact hf _ _ | rfl

theorem er_mapErr {m : M (World (traced R) N) ε α} {m' : M (World R N) ε α} {f : ε → ε'} (h : Erases m m') :
    Erases (M.mapErr f m) (M.mapErr f m') := by
  intro w
  simp only [M.mapErr, h w]

theorem er_tryM [ErrFrom ε ε'] {m : M (World (traced R) N) ε α} {m' : M (World R N) ε α} (h : Erases m m') :
    Erases (M.tryM m : M (World (traced R) N) ε' α) (M.tryM m') := er_mapErr h

theorem er_attempt {m : M (World (traced R) N) ε α} {m' : M (World R N) ε α} (h : Erases m m') :
    Erases (M.attempt m : M (World (traced R) N) ε' _) (M.attempt m') := by
  intro w
  simp only [M.attempt, h w]

theorem er_discard {m : M (World (traced R) N) ε α} {m' : M (World R N) ε α} (h : Erases m m') :
    Erases (discard m : M (World (traced R) N) ε Unit) (discard m') :=
  er_bind (f := fun _ => pure ()) (f' := fun _ => pure ()) h fun _ => er_pure

theorem er_touch {f : (traced R).St → Option (traced R).St} {f' : R.St → Option R.St}
    (h : ∀ st, f' st.1 = (f st).map (·.1)) :
    Erases (touch lo hi f : M (World (traced R) N) ε _) (touch lo hi f') := by
  intro w
  have e : ∀ l, (f' ((erase w).mem l)).isSome = (f (w.mem l)).isSome := fun l => by
    rw [show (erase w).mem l = (w.mem l).1 from rfl, h, Option.isSome_map]
  unfold touch
  simp only [e]
  split
  · simp only [erase, Prod.mk.injEq, World.mk.injEq, true_and, and_true]
    funext l
    split
    · rw [h]
      cases f (w.mem l) <;> rfl
    · rfl
  · rfl

theorem map_fst {o : Option R.St} {k : Mark} : o = (o.map (·, k)).map (·.1) := by cases o <;> rfl

theorem er_readAt : Erases (readAt t lo hi : M (World (traced R) N) ε _) (readAt t lo hi) := er_touch fun _ => map_fst
theorem er_writeAt : Erases (writeAt t lo hi : M (World (traced R) N) ε _) (writeAt t lo hi) := er_touch fun _ => map_fst
theorem er_release : Erases (release t lo hi : M (World (traced R) N) ε _) (release t lo hi) := er_touch fun _ => map_fst
theorem er_rawMut {p : Tag} : Erases (touch lo hi ((traced R).rawMut t p) : M (World (traced R) N) ε _)
    (touch lo hi (R.rawMut t p)) := er_touch fun _ => map_fst

theorem er_retagShared {p : Bool} : Erases (retagShared t lo hi p : M (World (traced R) N) ε _) (retagShared t lo hi p) :=
  er_bind er_fresh fun _ => er_bind (er_touch fun _ => map_fst) fun _ => er_pure

theorem er_retagUnique {p : Bool} : Erases (retagUnique t lo hi p : M (World (traced R) N) ε _) (retagUnique t lo hi p) :=
  er_bind er_fresh fun _ => er_bind (er_touch fun _ => map_fst) fun _ => er_pure

theorem er_retagTwoPhase : Erases (retagTwoPhase t : M (World (traced R) N) ε _) (retagTwoPhase t) :=
  er_bind er_fresh fun _ => er_bind (er_touch fun _ => map_fst) fun _ => er_pure

theorem er_protecting {m : M (World (traced R) N) ε α} {m' : M (World R N) ε α} (h : Erases m m') :
    Erases (protecting t lo hi m) (protecting t lo hi m') := by
  intro w
  unfold protecting
  rw [h w]
  generalize m w = x
  obtain ⟨r, v⟩ := x
  have e := er_release (ε := Empty) (t := t) (lo := lo) (hi := hi) v
  cases r <;> dsimp only <;> rw [e] <;>
    (generalize (release t lo hi : M (World (traced R) N) Empty Unit) v = x
     rcases x with ⟨_ | _ | _ | _ | _, _⟩ <;> rfl)

theorem er_withBuf {size : Nat} {body : Tag → M (World (traced R) N) ε α} {body' : Tag → M (World R N) ε α}
    (h : ∀ t, Erases (body t) (body' t)) : Erases (withBuf size body) (withBuf size body') := by
  intro w
  have e := h w.next {
    str := w.str
    mem := fun l => if l ≤ N then w.mem l else if l < N + 1 + size then (traced R).alloc w.next else (traced R).empty
    next := w.next + 1 }
  have e' : erase (R := R) (N := N) {
      str := w.str
      mem := fun l => if l ≤ N then w.mem l else if l < N + 1 + size then (traced R).alloc w.next else (traced R).empty
      next := w.next + 1 } = {
      str := w.str
      mem := fun l => if l ≤ N then (w.mem l).1 else if l < N + 1 + size then R.alloc w.next else R.empty
      next := w.next + 1 } := by
    simp only [erase, World.mk.injEq, true_and, and_true]
    funext l
    split
    · rfl
    · split <;> rfl
  rw [e'] at e
  unfold withBuf
  simp only [erase] at e ⊢
  rw [e]
  simp only [Prod.mk.injEq, World.mk.injEq, true_and, and_true]
  funext l
  split <;> rfl

theorem er_withLocal {init : ArrayString N} {body : Tag → M (World (traced R) N) ε α} {body' : Tag → M (World R N) ε α}
    (h : ∀ t, Erases (body t) (body' t)) : Erases (withLocal init lo hi body) (withLocal init lo hi body') := by
  intro w
  have e := h w.next {
    str := init
    mem := fun l => if l ≤ N then (traced R).alloc w.next
      else if l < N + 1 + (hi - lo) then w.mem (lo + (l - (N + 1))) else (traced R).empty
    next := w.next + 1 }
  have e' : erase (R := R) (N := N) {
      str := init
      mem := fun l => if l ≤ N then (traced R).alloc w.next
        else if l < N + 1 + (hi - lo) then w.mem (lo + (l - (N + 1))) else (traced R).empty
      next := w.next + 1 } = {
      str := init
      mem := fun l => if l ≤ N then R.alloc w.next
        else if l < N + 1 + (hi - lo) then (w.mem (lo + (l - (N + 1)))).1 else R.empty
      next := w.next + 1 } := by
    simp only [erase, World.mk.injEq, true_and, and_true]
    funext l
    split
    · rfl
    · split <;> rfl
  rw [e'] at e
  unfold withLocal
  simp only [erase] at e ⊢
  rw [e]
  simp only [Prod.mk.injEq, World.mk.injEq, true_and, and_true]
  funext l
  split <;> rfl

theorem traced_rawTag : (traced R).rawTag = R.rawTag := rfl

/-- A step of a comparison of two programs that are written the same way. -/
syntax "er" : tactic
macro_rules | `(tactic| er) => `(tactic| first
  | with_reducible assumption
  | with_reducible exact er_pure | with_reducible exact er_lift | with_reducible exact er_try | with_reducible exact er_get | with_reducible exact er_put | with_reducible exact er_plain | with_reducible exact er_fresh
  | with_reducible exact er_readAt | with_reducible exact er_writeAt | with_reducible exact er_release | with_reducible exact er_rawMut
  | with_reducible exact er_retagShared | with_reducible exact er_retagUnique | with_reducible exact er_retagTwoPhase
  | with_reducible refine er_mapErr ?_ | with_reducible refine er_tryM ?_ | with_reducible refine er_attempt ?_ | with_reducible refine er_discard ?_
  | with_reducible refine er_protecting ?_ | with_reducible refine er_withBuf fun _ => ?_ | with_reducible refine er_withLocal fun _ => ?_
  | with_reducible refine er_bind ?_ fun _ => ?_
  | rw [traced_rawTag]
  | split)

theorem er_passShared {body : Tag → M (World (traced R) N) ε α} {body' : Tag → M (World R N) ε α}
    (h : ∀ t, Erases (body t) (body' t)) : Erases (passShared t lo hi body) (passShared t lo hi body') := by
  unfold passShared
  repeat' first | with_reducible exact h _ | er
macro_rules | `(tactic| er) => `(tactic| with_reducible refine er_passShared fun _ => ?_)

theorem er_passUnique {body : Tag → M (World (traced R) N) ε α} {body' : Tag → M (World R N) ε α}
    (h : ∀ t, Erases (body t) (body' t)) : Erases (passUnique t lo hi body) (passUnique t lo hi body') := by
  unfold passUnique
  repeat' first | with_reducible exact h _ | er
macro_rules | `(tactic| er) => `(tactic| with_reducible refine er_passUnique fun _ => ?_)

theorem er_through {lo' hi' : Nat} : Erases (through t lo hi lo' hi' : M (World (traced R) N) ε _) (through t lo hi lo' hi') := by
  unfold through
  repeat' er
macro_rules | `(tactic| er) => `(tactic| with_reducible exact er_through)

theorem er_throughMut {lo' hi' : Nat} : Erases (throughMut t lo hi lo' hi' : M (World (traced R) N) ε _) (throughMut t lo hi lo' hi') := by
  unfold throughMut
  repeat' er
macro_rules | `(tactic| er) => `(tactic| with_reducible exact er_throughMut)

theorem er_throughRaw {lo' hi' : Nat} : Erases (throughRaw t lo hi lo' hi' : M (World (traced R) N) ε _) (throughRaw t lo hi lo' hi') := by
  unfold throughRaw
  repeat' er
macro_rules | `(tactic| er) => `(tactic| with_reducible exact er_throughRaw)

theorem er_callShared {body : Tag → M (World (traced R) N) ε α} {body' : Tag → M (World R N) ε α}
    (h : ∀ t, Erases (body t) (body' t)) : Erases (callShared t body) (callShared t body') := by
  unfold callShared
  repeat' first | with_reducible exact h _ | er
macro_rules | `(tactic| er) => `(tactic| with_reducible refine er_callShared fun _ => ?_)

theorem er_callRef {body : Tag → M (World (traced R) N) ε (Tag × Nat)} {body' : Tag → M (World R N) ε (Tag × Nat)}
    (h : ∀ t, Erases (body t) (body' t)) : Erases (callRef t body) (callRef t body') := by
  unfold callRef
  repeat' first | with_reducible exact h _ | er
macro_rules | `(tactic| er) => `(tactic| with_reducible refine er_callRef fun _ => ?_)

theorem er_passRef {body : Tag → M (World (traced R) N) ε (Tag × Nat)} {body' : Tag → M (World R N) ε (Tag × Nat)}
    (h : ∀ t, Erases (body t) (body' t)) : Erases (passRef t body) (passRef t body') := by
  unfold passRef
  repeat' first | with_reducible exact h _ | er
macro_rules | `(tactic| er) => `(tactic| with_reducible refine er_passRef fun _ => ?_)

theorem er_len : Erases (len self : M (World (traced R) N) ε _) (len self) := by
  unfold len
  repeat' er
macro_rules | `(tactic| er) => `(tactic| with_reducible exact er_len)

theorem er_asRefBytes : Erases (asRefBytes self : M (World (traced R) N) ε _) (asRefBytes self) := by
  unfold asRefBytes
  repeat' er
macro_rules | `(tactic| er) => `(tactic| with_reducible exact er_asRefBytes)

theorem er_asRefStr : Erases (asRefStr self : M (World (traced R) N) ε _) (asRefStr self) := by
  unfold asRefStr
  repeat' er
macro_rules | `(tactic| er) => `(tactic| with_reducible exact er_asRefStr)

theorem er_asStr : Erases (asStr self : M (World (traced R) N) ε _) (asStr self) := by
  unfold asStr
  repeat' er
macro_rules | `(tactic| er) => `(tactic| with_reducible exact er_asStr)

theorem er_readBoundary {n i : Nat} : Erases (readBoundary t lo n i : M (World (traced R) N) ε _) (readBoundary t lo n i) := by
  unfold readBoundary
  repeat' er
macro_rules | `(tactic| er) => `(tactic| with_reducible exact er_readBoundary)

theorem er_isCharBoundary {i : Nat} : Erases (isCharBoundary self i : M (World (traced R) N) _ _) (isCharBoundary self i) := by
  unfold isCharBoundary
  repeat' er
macro_rules | `(tactic| er) => `(tactic| with_reducible exact er_isCharBoundary)

theorem er_asMutPtr : Erases (asMutPtr self : M (World (traced R) N) ε _) (asMutPtr self) := by
  unfold asMutPtr
  repeat' er
macro_rules | `(tactic| er) => `(tactic| with_reducible exact er_asMutPtr)

theorem er_moveTail {p : Tag} {a b c : Nat} : Erases (moveTail self p a b c : M (World (traced R) N) _ _) (moveTail self p a b c) := by
  unfold moveTail
  repeat' er
macro_rules | `(tactic| er) => `(tactic| with_reducible exact er_moveTail)

theorem er_copyText {p : Tag} {a : Nat} {s : Bytes} : Erases (copyText t p a s : M (World (traced R) N) _ _) (copyText t p a s) := by
  unfold copyText
  repeat' er
macro_rules | `(tactic| er) => `(tactic| with_reducible exact er_copyText)

theorem er_rangeEnd {r : RangeB} : Erases (rangeEnd self r : M (World (traced R) N) ε _) (rangeEnd self r) := by
  unfold rangeEnd
  repeat' er
macro_rules | `(tactic| er) => `(tactic| with_reducible exact er_rangeEnd)

theorem er_replaceRangeBody {r : RangeB} {s : Bytes} : Erases (replaceRangeBody self t r s : M (World (traced R) N) _ _) (replaceRangeBody self t r s) := by
  unfold replaceRangeBody
  repeat' er
macro_rules | `(tactic| er) => `(tactic| with_reducible exact er_replaceRangeBody)

theorem er_replaceRangeOn {r : RangeB} {s : Bytes} : Erases (replaceRangeOn self arg r s : M (World (traced R) N) _ _) (replaceRangeOn self arg r s) := by
  unfold replaceRangeOn
  repeat' er
macro_rules | `(tactic| er) => `(tactic| with_reducible exact er_replaceRangeOn)

theorem er_asMutOn : Erases (asMutOn self : M (World (traced R) N) ε _) (asMutOn self) := by
  unfold asMutOn
  repeat' er
macro_rules | `(tactic| er) => `(tactic| with_reducible exact er_asMutOn)

theorem er_look : Erases (look self : M (World (traced R) N) ε _) (look self) := by
  unfold look
  repeat' er
macro_rules | `(tactic| er) => `(tactic| with_reducible exact er_look)

theorem er_callMut {body : Tag → M (World (traced R) N) ε α} {body' : Tag → M (World R N) ε α}
    (h : ∀ t, Erases (body t) (body' t)) : Erases (callMut t body) (callMut t body') := by
  unfold callMut
  repeat' first | with_reducible exact h _ | er
macro_rules | `(tactic| er) => `(tactic| with_reducible refine er_callMut fun _ => ?_)

theorem er_withNew {body : Tag → M (World (traced R) N) ε α} {body' : Tag → M (World R N) ε α}
    (h : ∀ t, Erases (body t) (body' t)) : Erases (withNew lo hi body) (withNew lo hi body') := by
  unfold withNew
  repeat' first | with_reducible exact h _ | er
macro_rules | `(tactic| er) => `(tactic| with_reducible refine er_withNew fun _ => ?_)

theorem er_setSize {n : UInt8} : Erases (setSize self n : M (World (traced R) N) ε _) (setSize self n) := by
  unfold setSize
  repeat' er
macro_rules | `(tactic| er) => `(tactic| with_reducible exact er_setSize)

theorem er_tryPushStr {s : Bytes} : Erases (tryPushStr self arg s : M (World (traced R) N) _ _) (tryPushStr self arg s) := by
  unfold tryPushStr
  repeat' er
macro_rules | `(tactic| er) => `(tactic| with_reducible exact er_tryPushStr)

theorem er_cut {s : Bytes} {n : Nat} : Erases (cut t s n : M (World (traced R) N) ε _) (cut t s n) := by
  unfold cut
  repeat' er
macro_rules | `(tactic| er) => `(tactic| with_reducible exact er_cut)

theorem er_truncateStr {s : Bytes} {n : Nat} : Erases (truncateStr t s n : M (World (traced R) N) ε _) (truncateStr t s n) := by
  unfold truncateStr
  repeat' er
macro_rules | `(tactic| er) => `(tactic| with_reducible exact er_truncateStr)

theorem er_truncated {s : Bytes} : Erases (truncated self t s : M (World (traced R) N) ε _) (truncated self t s) := by
  unfold truncated
  repeat' er
macro_rules | `(tactic| er) => `(tactic| with_reducible exact er_truncated)

theorem er_pushStrTruncate {s : Bytes} : Erases (pushStrTruncate self arg s : M (World (traced R) N) ε _) (pushStrTruncate self arg s) := by
  unfold pushStrTruncate
  repeat' er
macro_rules | `(tactic| er) => `(tactic| with_reducible exact er_pushStrTruncate)

theorem er_encode {c : Char} : Erases (encode t c : M (World (traced R) N) ε _) (encode t c) := by
  unfold encode
  repeat' er
macro_rules | `(tactic| er) => `(tactic| with_reducible exact er_encode)

theorem er_tryPush {c : Char} : Erases (tryPush self c : M (World (traced R) N) _ _) (tryPush self c) := by
  unfold tryPush
  repeat' er
macro_rules | `(tactic| er) => `(tactic| with_reducible exact er_tryPush)

theorem er_truncate {n : Nat} : Erases (truncate self n : M (World (traced R) N) _ _) (truncate self n) := by
  unfold truncate
  repeat' er
macro_rules | `(tactic| er) => `(tactic| with_reducible exact er_truncate)

theorem er_pop : Erases (pop self : M (World (traced R) N) ε _) (pop self) := by
  unfold pop
  repeat' er
macro_rules | `(tactic| er) => `(tactic| with_reducible exact er_pop)

theorem er_trim : Erases (trim self : M (World (traced R) N) ε _) (trim self) := by
  unfold trim
  repeat' er
macro_rules | `(tactic| er) => `(tactic| with_reducible exact er_trim)

theorem er_selfBoundary {i : Nat} : Erases (selfBoundary self i : M (World (traced R) N) ε _) (selfBoundary self i) := by
  unfold selfBoundary
  repeat' er
macro_rules | `(tactic| er) => `(tactic| with_reducible exact er_selfBoundary)

theorem er_removeScan {stop : Nat} : Erases (removeScan self stop : M (World (traced R) N) _ _) (removeScan self stop) := by
  unfold removeScan
  refine er_bind er_selfBoundary fun _ => er_bind er_get fun _ => er_bind er_lift fun _ => ?_
  split
  · exact er_pure
  · split
    · exact er_removeScan
    · exact er_bind er_lift fun _ => er_bind er_selfBoundary fun _ => er_pure
termination_by usizeMax - stop
macro_rules | `(tactic| er) => `(tactic| with_reducible exact er_removeScan)

theorem er_remove {i : Nat} : Erases (remove self i : M (World (traced R) N) _ _) (remove self i) := by
  unfold remove
  repeat' er
macro_rules | `(tactic| er) => `(tactic| with_reducible exact er_remove)

theorem er_tryInsertStr {i : Nat} {s : Bytes} : Erases (tryInsertStr self arg i s : M (World (traced R) N) _ _) (tryInsertStr self arg i s) := by
  unfold tryInsertStr
  repeat' er
macro_rules | `(tactic| er) => `(tactic| with_reducible exact er_tryInsertStr)

theorem er_tryInsert {i : Nat} {c : Char} : Erases (tryInsert self i c : M (World (traced R) N) _ _) (tryInsert self i c) := by
  unfold tryInsert
  repeat' er
macro_rules | `(tactic| er) => `(tactic| with_reducible exact er_tryInsert)

theorem er_insertStrTruncate {i : Nat} {s : Bytes} : Erases (insertStrTruncate self arg i s : M (World (traced R) N) _ _) (insertStrTruncate self arg i s) := by
  unfold insertStrTruncate
  repeat' er
macro_rules | `(tactic| er) => `(tactic| with_reducible exact er_insertStrTruncate)

theorem er_clear : Erases (clear self : M (World (traced R) N) ε _) (clear self) := by
  unfold clear
  repeat' er
macro_rules | `(tactic| er) => `(tactic| with_reducible exact er_clear)

theorem er_tryFromStr {s : Bytes} : Erases (tryFromStr arg lo hi s : M (World (traced R) N) _ _) (tryFromStr arg lo hi s) := by
  unfold tryFromStr
  repeat' er
macro_rules | `(tactic| er) => `(tactic| with_reducible exact er_tryFromStr)

theorem er_retainLoop {φ : Type} {f : ArrayString.Pred φ} {out : Tag} {q : φ} {pos : Nat} {cs : List Char} :
    Erases (retainLoop t out f q pos cs : M (World (traced R) N) ε φ) (retainLoop t out f q pos cs) := by
  induction cs generalizing q pos with
  | nil => exact er_pure
  | cons c cs ih =>
    rw [retainLoop, retainLoop]
    repeat' first | with_reducible exact ih | er
macro_rules | `(tactic| er) => `(tactic| with_reducible exact er_retainLoop)

theorem er_retained {φ : Type} {f : ArrayString.Pred φ} {q : φ} : Erases (retained self f q : M (World (traced R) N) ε _) (retained self f q) := by
  unfold retained
  repeat' er
macro_rules | `(tactic| er) => `(tactic| with_reducible exact er_retained)

theorem er_retain {φ : Type} {f : ArrayString.Pred φ} {q : φ} : Erases (retain self f q : M (World (traced R) N) ε _) (retain self f q) := by
  unfold retain
  repeat' er
macro_rules | `(tactic| er) => `(tactic| with_reducible exact er_retain)

theorem er_drained {a b : Nat} {s : Bytes} : Erases (drained self a b s : M (World (traced R) N) _ _) (drained self a b s) := by
  unfold drained
  repeat' er
macro_rules | `(tactic| er) => `(tactic| with_reducible exact er_drained)

theorem er_drain {r : RangeB} : Erases (drain self r : M (World (traced R) N) _ _) (drain self r) := by
  unfold drain
  repeat' er
macro_rules | `(tactic| er) => `(tactic| with_reducible exact er_drain)

theorem er_splitOff {i : Nat} : Erases (splitOff self i : M (World (traced R) N) _ _) (splitOff self i) := by
  unfold splitOff
  repeat' er
macro_rules | `(tactic| er) => `(tactic| with_reducible exact er_splitOff)

theorem er_writeStr {s : Bytes} : Erases (writeStr self arg s : M (World (traced R) N) _ _) (writeStr self arg s) := by
  unfold writeStr
  repeat' er
macro_rules | `(tactic| er) => `(tactic| with_reducible exact er_writeStr)

theorem er_fromStrTruncate {s : Bytes} : Erases (fromStrTruncate arg s : M (World (traced R) N) ε _) (fromStrTruncate arg s) := by
  unfold fromStrTruncate
  repeat' er
macro_rules | `(tactic| er) => `(tactic| with_reducible exact er_fromStrTruncate)

theorem er_feed {f : β → M (World (traced R) N) ε Bool} {f' : β → M (World R N) ε Bool} {l : Script β}
    (h : ∀ a, Erases (f a) (f' a)) : Erases (feed f l) (feed f' l) := by
  induction l with
  | nil => exact er_pure
  | cons a l ih =>
    cases a with
    | none => exact er_lift
    | some a =>
      refine er_bind (h a) fun b => ?_
      cases b
      · exact er_pure
      · exact ih
macro_rules | `(tactic| er) => `(tactic| with_reducible refine er_feed fun _ => ?_)

theorem er_tryFromIterator {l : Script Bytes} : Erases (tryFromIterator arg l : M (World (traced R) N) _ _) (tryFromIterator arg l) := by
  unfold tryFromIterator
  repeat' er
macro_rules | `(tactic| er) => `(tactic| with_reducible exact er_tryFromIterator)

theorem er_fromIteratorTruncate {l : Script ArrayString.AsRefTwice} : Erases (fromIteratorTruncate arg l : M (World (traced R) N) ε _) (fromIteratorTruncate arg l) := by
  unfold fromIteratorTruncate
  repeat' er
macro_rules | `(tactic| er) => `(tactic| with_reducible exact er_fromIteratorTruncate)

theorem er_tryFromChars {l : Script Char} : Erases (tryFromChars l : M (World (traced R) N) _ _) (tryFromChars l) := by
  unfold tryFromChars
  repeat' er
macro_rules | `(tactic| er) => `(tactic| with_reducible exact er_tryFromChars)

theorem er_pushOrBreak {c : Char} : Erases (pushOrBreak t c : M (World (traced R) N) ε _) (pushOrBreak t c) := by
  unfold pushOrBreak
  repeat' er
macro_rules | `(tactic| er) => `(tactic| with_reducible exact er_pushOrBreak)

theorem er_fromCharsTruncate {l : Script Char} : Erases (fromCharsTruncate l : M (World (traced R) N) ε _) (fromCharsTruncate l) := by
  unfold fromCharsTruncate
  repeat' er
macro_rules | `(tactic| er) => `(tactic| with_reducible exact er_fromCharsTruncate)

theorem er_tryFromUtf16 {l : List UInt16} : Erases (tryFromUtf16 l : M (World (traced R) N) _ _) (tryFromUtf16 l) := by
  unfold tryFromUtf16
  repeat' er
macro_rules | `(tactic| er) => `(tactic| with_reducible exact er_tryFromUtf16)

theorem er_fromUtf16Truncate {l : List UInt16} : Erases (fromUtf16Truncate l : M (World (traced R) N) _ _) (fromUtf16Truncate l) := by
  unfold fromUtf16Truncate
  repeat' er
macro_rules | `(tactic| er) => `(tactic| with_reducible exact er_fromUtf16Truncate)

theorem er_fromUtf16LossyTruncate {l : List UInt16} : Erases (fromUtf16LossyTruncate l : M (World (traced R) N) ε _) (fromUtf16LossyTruncate l) := by
  unfold fromUtf16LossyTruncate
  repeat' er
macro_rules | `(tactic| er) => `(tactic| with_reducible exact er_fromUtf16LossyTruncate)

theorem er_extend {make : M (World (traced R) N) ε (ArrayString N)} {make' : M (World R N) ε (ArrayString N)}
    (h : Erases make make') : Erases (extend self make) (extend self make') := by
  unfold extend
  repeat' er
macro_rules | `(tactic| er) => `(tactic| with_reducible refine er_extend ?_)

theorem er_add {s : Bytes} : Erases (add self arg s : M (World (traced R) N) ε _) (add self arg s) := by
  unfold add addTo
  repeat' er
macro_rules | `(tactic| er) => `(tactic| with_reducible exact er_add)

theorem er_writeAll {l : List Bytes} :
    Erases (writeAll self arg l : M (World (traced R) N) _ _) (writeAll self arg l) := by
  induction l with
  | nil => exact er_pure
  | cons s l ih =>
    rw [writeAll, writeAll]
    repeat' er
macro_rules | `(tactic| er) => `(tactic| with_reducible exact er_writeAll)

theorem er_reading : Erases (reading self : M (World (traced R) N) ε _) (reading self) := by
  unfold reading
  repeat' er
macro_rules | `(tactic| er) => `(tactic| with_reducible exact er_reading)

theorem er_index {i : IdxU8} : Erases (index self i : M (World (traced R) N) ε _) (index self i) := by
  unfold index indexRef
  repeat' er
macro_rules | `(tactic| er) => `(tactic| with_reducible exact er_index)

theorem er_asMutStrOn : Erases (asMutStrOn self : M (World (traced R) N) ε _) (asMutStrOn self) := by
  unfold asMutStrOn
  repeat' er
macro_rules | `(tactic| er) => `(tactic| with_reducible exact er_asMutStrOn)

theorem er_asMutStr : Erases (asMutStr self : M (World (traced R) N) ε _) (asMutStr self) := by
  unfold asMutStr
  repeat' er
macro_rules | `(tactic| er) => `(tactic| with_reducible exact er_asMutStr)

theorem er_editText {e : Bytes → Bytes} : Erases (editText self e : M (World (traced R) N) ε _) (editText self e) := by
  unfold editText
  repeat' er
macro_rules | `(tactic| er) => `(tactic| with_reducible exact er_editText)

theorem er_indexMutOn {i : IdxU8} : Erases (indexMutOn self i : M (World (traced R) N) ε _) (indexMutOn self i) := by
  unfold indexMutOn
  repeat' er
macro_rules | `(tactic| er) => `(tactic| with_reducible exact er_indexMutOn)

theorem er_editSlice {i : IdxU8} {e : Bytes → Bytes} : Erases (editSlice self i e : M (World (traced R) N) ε _) (editSlice self i e) := by
  unfold editSlice
  repeat' er
macro_rules | `(tactic| er) => `(tactic| with_reducible exact er_editSlice)

theorem er_drainEnds {es : List End} :
    Erases (drainEnds self es : M (World (traced R) N) ε _) (drainEnds self es) := by
  induction es with
  | nil => exact er_pure
  | cons e es ih => cases e <;> rw [drainEnds, drainEnds] <;> repeat' er
macro_rules | `(tactic| er) => `(tactic| with_reducible exact er_drainEnds)

section calls
variable [Verif.Kind ε] {m : M (World (traced R) N) ε α} {m' : M (World R N) ε α} {out : α → Out}

theorem er_call (h : Erases m m') : Erases (call m out) (call m' out) := by
  unfold call
  repeat' er
macro_rules | `(tactic| er) => `(tactic| with_reducible refine er_call ?_)

theorem er_method {m : Tag → M (World (traced R) N) ε α} {m' : Tag → M (World R N) ε α}
    (h : ∀ t, Erases (m t) (m' t)) : Erases (method self m out) (method self m' out) := by
  unfold method
  repeat' first | with_reducible exact h _ | er
macro_rules | `(tactic| er) => `(tactic| with_reducible refine er_method fun _ => ?_)

theorem er_construct {m : M (World (traced R) N) ε (ArrayString N)} {m' : M (World R N) ε (ArrayString N)}
    (h : Erases m m') : Erases (construct self m) (construct self m') := by
  unfold construct
  repeat' er
macro_rules | `(tactic| er) => `(tactic| with_reducible refine er_construct ?_)

theorem er_query {m : M (World (traced R) N) ε Unit} {m' : M (World R N) ε Unit} {f : ArrayString N → Res ε α}
    (h : Erases m m') : Erases (query m f out) (query m' f out) := by
  unfold query
  repeat' er
macro_rules | `(tactic| er) => `(tactic| with_reducible refine er_query ?_)

end calls

theorem er_exec {op : Op} : Erases (exec self arg op : M (World (traced R) N) _ _) (exec self arg op) := by
  cases op <;> unfold exec <;> dsimp only <;> repeat' er

/-- A history, with the accesses of all its calls. -/
theorem er_runOps {ops : List Op} {w : World (traced R) N} :
    runOps self arg ops (erase w) = ((runOps self arg ops w).1, erase (runOps self arg ops w).2) := by
  induction ops generalizing w with
  | nil => rfl
  | cons op ops ih => simp only [runOps, er_exec w, ih]

end Verif.Borrow
