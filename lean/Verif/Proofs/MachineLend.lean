import Verif.Model.MachineLend
import Verif.Proofs.MachineCacheMany
import Verif.Proofs.MachineCache
import Verif.Proofs.BorrowCache
import Verif.Props.History

/-! Calls with a text that is anywhere in memory: in the window they are the calls of `Model/Machine`, whose texts
are already where the caller would put them. -/

namespace Verif.Machine
open Spec
open Borrow (Rules Tag World Laws Inv Usable Covers Grows Ready Settled State Home partText part)

variable {R : Rules} {L : Laws R} {N : Nat} {ε α β : Type} {T : Nat → List Tag} {caller arg a : Tag} {top o : Nat}
  {m : Mem R N} {cs w : List Char}

theorem texts_op {c : TextCall} : Borrow.texts (c.op w) = [w] := by cases c <;> rfl

theorem oneText_op {c : TextCall} : oneText (c.op w) = some w := by cases c <;> rfl

/-- A text that is there need not be placed. -/
theorem given_there {f : Nat → M (Mem R N) ε α} (h : Text N (utf8 w) m.bytes) :
    given w f m = f (utf8 w).length m := by
  have : (place (utf8 w) : M (Mem R N) ε Unit) m = (.ok (), m) := by
    unfold place
    congr 1
    obtain ⟨g, mem, next⟩ := m
    congr 1
    funext l
    dsimp only
    split
    next hl =>
      by_cases hi : l - (N + 1) < (utf8 w).length
      · rw [h _ hi, show N + 1 + (l - (N + 1)) = l by omega]
        rfl
      · rw [List.getElem?_eq_none (by omega)]
        rfl
    next => rfl
  unfold given
  rw [Borrow.bind_ok this]

theorem exec_there {c : TextCall} (h : Text N (utf8 w) m.bytes) :
    exec caller a (c.op w) m = execText caller a (utf8 w).length c m := by
  have : (exec caller a (c.op w) : M (Mem R N) _ _) = given w fun k => execText caller a k c := by cases c <;> rfl
  rw [this, given_there h]

/-- It leaves the bytes alone. -/
def Still (x : M (Mem R N) ε α) : Prop := ∀ m, (x m).2.bytes = m.bytes

theorem still_bind {x : M (Mem R N) ε α} {f : α → M (Mem R N) ε β} (h : Still x) (hf : ∀ a, Still (f a)) :
    Still (x >>= f) := by
  intro m
  show (M.bind x f m).2.bytes = _
  unfold M.bind
  have := h m
  obtain ⟨y, hy⟩ : ∃ y, x m = y := ⟨_, rfl⟩
  obtain ⟨r, m'⟩ := y
  rw [hy] at this ⊢
  cases r with
  | ok a => exact (hf a m').trans this
  | _ => exact this

theorem still_touch {lo hi : Nat} {f : R.St → Option R.St} : Still (touch lo hi f : M (Mem R N) ε Unit) := by
  intro m
  unfold touch
  split <;> rfl

theorem still_retagUnique {t : Tag} {lo hi : Nat} {p : Bool} : Still (retagUnique t lo hi p : M (Mem R N) ε Tag) :=
  still_bind (fun _ => rfl) fun _ => still_bind still_touch fun _ _ => rfl

theorem still_derefMut : Still (Cache.derefMut caller : M (Mem R N) ε Tag) :=
  still_bind still_retagUnique fun _ => still_bind still_retagUnique fun _ => still_bind still_retagUnique fun _ =>
    still_bind still_touch fun _ => still_retagUnique

theorem then_there {x : M (Mem R N) ε α} {f f' : α → M (Mem R N) ε β} (hx : Still x)
    (hf : ∀ a m', m'.bytes = m.bytes → f a m' = f' a m') : (x >>= f) m = (x >>= f') m := by
  show M.bind x f m = M.bind x f' m
  unfold M.bind
  have := hx m
  obtain ⟨y, hy⟩ : ∃ y, x m = y := ⟨_, rfl⟩
  obtain ⟨r, m'⟩ := y
  rw [hy] at this ⊢
  cases r with
  | ok a => exact hf a m' this
  | _ => rfl

theorem cacheExec_there {c : TextCall} (h : Text N (utf8 w) m.bytes) :
    Cache.exec caller a (c.op w) m = Cache.execText caller a (utf8 w).length c m := by
  have through : ∀ c : TextCall, (Cache.derefMut caller >>= fun v => exec v a (c.op w) : M (Mem R N) _ _) m =
      (Cache.derefMut caller >>= fun v => execText v a (utf8 w).length c : M (Mem R N) _ _) m :=
    fun c => then_there still_derefMut fun v m' hm => exec_there (by rwa [hm])
  cases c
  case tryPushStr => exact through .tryPushStr
  case pushStrTruncate => exact through .pushStrTruncate
  case tryInsertStr i => exact through (.tryInsertStr i)
  case insertStrTruncate i => exact through (.insertStrTruncate i)
  case replaceRange r => exact through (.replaceRange r)
  case tryFromStr => exact given_there (f := fun k => Cache.execText caller a k .tryFromStr) h
  case parse => exact given_there (f := fun k => Cache.execText caller a k .parse) h
  case fromStrTruncate => exact given_there (f := fun k => Cache.execText caller a k .fromStrTruncate) h
  case from_ => exact given_there (f := fun k => Cache.execText caller a k .from_) h
  case add => exact given_there (f := fun k => Cache.execText caller a k .add) h
  case writeStr => exact given_there (f := fun k => Cache.execText caller a k .writeStr) h
  case eqStr => exact given_there (f := fun k => Cache.execText caller a k .eqStr) h

/-- The text `w` is at `o`. -/
def TextAt (g : Nat → UInt8) (o : Nat) (w : List Char) : Prop := ∀ i, i < byteLen w → (utf8 w)[i]? = some (g (o + i))

/-- The memory that the window shows. -/
def seen (m : Mem R N) (o k : Nat) : Mem R N where
  bytes := fun l => if l ≤ N then m.bytes l else m.bytes (o + (l - (N + 1)))
  mem := fun l => if l ≤ N then m.mem l else if l < N + 1 + k then m.mem (o + (l - (N + 1))) else R.empty
  next := m.next

theorem seen_str {k : Nat} : (seen m o k).str = m.str :=
  strOf_congr fun _ hl => if_pos hl

/-- A call in the window does to the string what the call does, and leaves the text and all other bytes alone. -/
theorem window_run [ValidCapacity N] {op : Op} {x : M (Mem R N) Failure Out} {x' : M (Mem R N) Failure Out}
    {n : M (World R N) Failure Out}
    (hN : N < o) (htop : o + byteLen w ≤ top)
    (h : Inv L (start N caller arg) (startOk R N caller arg) top T (fun _ => []) (abs m))
    (ha : Usable (start N caller arg) T a o (o + byteLen w)) (hs : Holds m.str cs) (hw : TextAt m.bytes o w)
    (hop : op.Ok) (ht : Borrow.texts op = [w]) (h1 : oneText op = some w)
    (hx : ∀ v : Mem R N, Text N (utf8 w) v.bytes → x v = x' v)
    (hcall : ∀ g, Valid N g → (∀ t ∈ Borrow.texts op, byteLen t ≤ byteLen w) → SimCall (oneText op) (byteLen w) g x n)
    (hsim : ∀ {A : Borrow.Text R N} {T P : Nat → List Tag} {v : World R N}, State L (Home L caller fun _ => []) A T P v →
      Borrow.Shape v.str → (∀ t ∈ Borrow.texts op, N + 1 + (utf8 t).length ≤ A.total) →
      Usable A.b T a (N + 1) A.total → Borrow.Same L (Home L caller fun _ => []) A P T n (Verif.exec op) v) :
    (window o (byteLen w) x' m).1 = (step N op cs).1.toRes ∧
      Holds (window o (byteLen w) x' m).2.str (step N op cs).2 ∧
      Ready L caller arg top (abs (window o (byteLen w) x' m).2) ∧
      ∀ l, N < l → (window o (byteLen w) x' m).2.bytes l = m.bytes l := by
  obtain ⟨e1, e2⟩ := exec_step op hop m.str cs hs
  have hr : Settled (Verif.exec op m.str).1 := by
    rw [e1]
    exact toRes_ne _
  have hstr : (abs (seen m o (byteLen w))).str = m.str := seen_str
  have hst : State L (Home L caller fun _ => []) (partText R N (start N caller arg) (startOk R N caller arg) o (o + byteLen w))
      (part N o T) (part N o fun _ => []) (abs (seen m o (byteLen w))) := by
    constructor
    · intro l hl
      obtain ⟨k1, k2⟩ := h l (by omega)
      have := L.side_end k1
      simp only [startOk, if_pos hl] at this
      show Home L _ _ l (if l ≤ N then _ else _) ∧ L.Below m.next (if l ≤ N then _ else _)
      rw [if_pos hl]
      exact ⟨this, k2⟩
    · intro l hl hl'
      replace hl' : l < N + 1 + (o + byteLen w - o) := hl'
      obtain ⟨k1, k2⟩ := h (o + (l - (N + 1))) (by omega)
      show L.Side _ _ _ _ (if l ≤ N then _ else _) ∧ L.Below m.next (if l ≤ N then _ else _)
      rw [if_neg (by omega), if_pos (by omega)]
      exact ⟨k1, k2⟩
  have hu : Usable (partText R N (start N caller arg) (startOk R N caller arg) o (o + byteLen w)).b (part N o T) a (N + 1)
      (partText R N (start N caller arg) (startOk R N caller arg) o (o + byteLen w)).total := by
    intro l h1 h2
    replace h2 : l < N + 1 + (o + byteLen w - o) := h2
    exact ha (o + (l - (N + 1))) (by omega) (by omega)
  obtain ⟨r, v', T', j1, j2, j3, j4⟩ := hsim hst (by rw [hstr]; exact ⟨hs.1, hs.2.1⟩)
    (by
      rw [ht]
      intro t ht
      rw [List.mem_singleton.1 ht, length_utf8]
      show _ ≤ N + 1 + (o + byteLen w - o)
      omega) hu
  rw [hstr] at j2 j3 j4
  obtain ⟨j4, -, -⟩ := j4 hr
  obtain rfl := Borrow.Match.eq j3
  have hg : Valid N (seen m o (byteLen w)).bytes := ⟨cs, by
    show Holds (seen m o (byteLen w)).str cs
    rw [seen_str]
    exact hs⟩
  obtain ⟨m', k1, k2, k3, k4⟩ := hcall _ hg (by simp [ht]) _ rfl _ _ j1 hr
  have k3 := k3 w h1
  have htext : Text N (utf8 w) (seen m o (byteLen w)).bytes := by
    intro i hi
    rw [length_utf8] at hi
    rw [hw i hi]
    show _ = some (if N + 1 + i ≤ N then _ else _)
    rw [if_neg (by omega), show N + 1 + i - (N + 1) = i by omega]
  have e : window o (byteLen w) x' m = ((Verif.exec op m.str).1,
      { bytes := fun l => if l ≤ N then m'.bytes l else if o ≤ l ∧ l < o + byteLen w then m'.bytes (N + 1 + (l - o)) else m.bytes l
        mem := fun l => if l ≤ N then m'.mem l else if o ≤ l ∧ l < o + byteLen w then m'.mem (N + 1 + (l - o)) else m.mem l
        next := max m.next m'.next }) := by
    change ((x' (seen m o (byteLen w))).1,
      (⟨fun l => if l ≤ N then (x' (seen m o (byteLen w))).2.bytes l
          else if o ≤ l ∧ l < o + byteLen w then (x' (seen m o (byteLen w))).2.bytes (N + 1 + (l - o)) else m.bytes l,
        fun l => if l ≤ N then (x' (seen m o (byteLen w))).2.mem l
          else if o ≤ l ∧ l < o + byteLen w then (x' (seen m o (byteLen w))).2.mem (N + 1 + (l - o)) else m.mem l,
        max m.next (x' (seen m o (byteLen w))).2.next⟩ : Mem R N)) = _
    rw [← hx _ htext, k1]
  rw [e]
  dsimp only
  refine ⟨e1, ?_, ⟨fun l hl => ?_, fun l hl hl' => ?_⟩, fun l hl => ?_⟩
  · have : strOf N (fun l => if l ≤ N then m'.bytes l else if o ≤ l ∧ l < o + byteLen w then m'.bytes (N + 1 + (l - o)) else m.bytes l) =
        (Verif.exec op m.str).2 := by
      rw [strOf_congr (g' := m'.bytes) fun l hl => if_pos hl, ← j2, ← k2]
      rfl
    show Holds (strOf N _) _
    rw [this]
    exact e2
  · obtain ⟨i1, i2⟩ := j4.1 l hl
    rw [← k2] at i1 i2
    show (R.write caller (if l ≤ N then _ else _)).isSome ∧ L.Below _ (if l ≤ N then _ else _)
    rw [if_pos hl]
    exact ⟨i1, L.below_mono i2 (Nat.le_max_right _ _)⟩
  · show (R.read arg (if l ≤ N then _ else _)).isSome ∧ L.Below _ (if l ≤ N then _ else _)
    rw [if_neg (by omega)]
    split
    next hlo =>
      obtain ⟨i1, i2⟩ := j4.2 (N + 1 + (l - o)) (by omega) (show _ < N + 1 + (o + byteLen w - o) by omega)
      rw [← k2] at i1 i2
      have i1 := L.side_end i1
      have he : o + (N + 1 + (l - o) - (N + 1)) = l := by omega
      simp only [partText, he, startOk, if_neg (show ¬ l ≤ N by omega)] at i1
      exact ⟨i1, L.below_mono i2 (Nat.le_max_right _ _)⟩
    next =>
      obtain ⟨i1, i2⟩ := h l hl'
      have i1 := L.side_end i1
      simp only [startOk, if_neg (show ¬ l ≤ N by omega)] at i1
      exact ⟨i1, L.below_mono i2 (Nat.le_max_left _ _)⟩
  · rw [if_neg (by omega)]
    split
    next hlo =>
      have h2 := k3 (l - o) (by rw [length_utf8]; omega)
      rw [hw (l - o) (by omega), show o + (l - o) = l by omega] at h2
      exact (Option.some.inj h2).symm
    next => rfl

theorem window_exec [ValidCapacity N] {c : TextCall} (hN : N < o) (htop : o + byteLen w ≤ top)
    (h : Inv L (start N caller arg) (startOk R N caller arg) top T (fun _ => []) (abs m))
    (ha : Usable (start N caller arg) T a o (o + byteLen w)) (hs : Holds m.str cs) (hw : TextAt m.bytes o w)
    (hop : (c.op w).Ok) :
    (window o (byteLen w) (execText caller a (byteLen w) c) m).1 = (step N (c.op w) cs).1.toRes ∧
      Holds (window o (byteLen w) (execText caller a (byteLen w) c) m).2.str (step N (c.op w) cs).2 ∧
      Ready L caller arg top (abs (window o (byteLen w) (execText caller a (byteLen w) c) m).2) ∧
      ∀ l, N < l → (window o (byteLen w) (execText caller a (byteLen w) c) m).2.bytes l = m.bytes l :=
  window_run hN htop h ha hs hw hop texts_op oneText_op
    (fun v hv => by rw [exec_there (caller := caller) (a := a) hv, length_utf8])
    (fun g hg hK => sim_exec (caller := caller) (arg := a) hg hK)
    (fun hst hs ht ha => Borrow.sim_execVia hst hs ht ha rfl rfl)

theorem window_cacheExec {m : Mem R 63} {c : TextCall} (hN : 63 < o) (htop : o + byteLen w ≤ top)
    (h : Inv L (start 63 caller arg) (startOk R 63 caller arg) top T (fun _ => []) (abs m))
    (ha : Usable (start 63 caller arg) T a o (o + byteLen w)) (hs : Holds m.str cs) (hw : TextAt m.bytes o w)
    (hop : (c.op w).Ok) :
    (window o (byteLen w) (Cache.execText caller a (byteLen w) c) m).1 = (step 63 (c.op w) cs).1.toRes ∧
      Holds (window o (byteLen w) (Cache.execText caller a (byteLen w) c) m).2.str (step 63 (c.op w) cs).2 ∧
      Ready L caller arg top (abs (window o (byteLen w) (Cache.execText caller a (byteLen w) c) m).2) ∧
      ∀ l, 63 < l → (window o (byteLen w) (Cache.execText caller a (byteLen w) c) m).2.bytes l = m.bytes l :=
  window_run hN htop h ha hs hw hop texts_op oneText_op
    (fun v hv => by rw [cacheExec_there (caller := caller) (a := a) hv, length_utf8])
    (fun g hg hK => sim_cacheExec (caller := caller) (arg := a) hg hK)
    (fun hst hs ht ha => Borrow.sim_cacheExecVia hst hs ht ha rfl rfl)

end Verif.Machine
