import Verif.Proofs.Logs

/-! # The `logs` feature: what calls do to the state of the world -/

namespace Verif.Logged
open Verif Spec ArrayString

variable {W σ ε ε' α β φ : Type} {N : Nat} {K : W → W → Prop} {R : σ → σ → Prop} {E : Env W}

/-- The relation on strings with worlds that looks at the worlds only. -/
def Both (K : W → W → Prop) (p q : ArrayString N × W) : Prop := K p.2 q.2

instance [h : Steady K] : Steady (Both K : ArrayString N × W → _ → Prop) where
  refl p := h.refl p.2
  trans h1 h2 := h.trans h1 h2

theorem keeps_pure [Steady R] (a : α) : Keeps R (pure a : M σ ε α) := fun u => Steady.refl u
theorem keeps_lift [Steady R] (r : Res ε α) : Keeps R (M.lift r : M σ ε α) := fun u => Steady.refl u

theorem keeps_bind [Steady R] {x : M σ ε α} {f : α → M σ ε β} (hx : Keeps R x) (hf : ∀ a, Keeps R (f a)) :
    Keeps R (x >>= f) := by
  intro u
  have h := hx u
  rw [M.bind_apply]
  rcases hu : x u with ⟨r, u'⟩
  rw [hu] at h
  cases r with
  | ok a => exact Steady.trans h (hf a u')
  | _ => exact h

theorem keeps_mapErr {x : M σ ε α} {f : ε → ε'} (h : Keeps R x) : Keeps R (M.mapErr f x) := h
theorem keeps_attempt {x : M σ ε α} (h : Keeps R x) : Keeps R (M.attempt x : M σ ε' _) := h
theorem keeps_noErr {x : M W Empty α} (h : Keeps K x) : Keeps K (noErr x : M W ε α) := h
theorem keeps_text [Steady K] (b : Bytes) : Keeps K (text b : AsRefStr W) := fun u => Steady.refl u

theorem keeps_view {f : ArrayString N → M W ε α} (h : ∀ s, Keeps K (f s)) : Keeps (Both K) (view f) :=
  fun p => h p.1 p.2
theorem keeps_update [Steady K] (f : ArrayString N → ArrayString N) :
    Keeps (Both K) (update f : M (ArrayString N × W) ε Unit) := fun p => Steady.refl p.2

theorem keeps_onLocal {x : M (ArrayString N × W) ε α} (h : Keeps (Both K) x) (s : ArrayString N) :
    Keeps K (onLocal x s) := by
  intro w
  have := h (s, w)
  unfold onLocal
  rcases hx : x (s, w) with ⟨r, p⟩
  rw [hx] at this
  cases r <;> exact this

theorem keeps_debugAssertM [Steady R] {b : M σ ε Bool} (h : Keeps R b) : Keeps R (debugAssertM E b) := by
  unfold debugAssertM
  split
  · exact keeps_bind h fun _ => keeps_lift _
  · exact keeps_pure _

/-- The arguments of a log statement: evaluating them, and later formatting the message. -/
def KeepsArgs (K : W → W → Prop) (args : M W Empty (M W Empty Bytes)) : Prop :=
  ∀ w, K w (args w).2 ∧ ∀ m, (args w).1 = .ok m → Keeps K m

theorem keepsArgs_pure [Steady K] {m : M W Empty Bytes} (h : Keeps K m) : KeepsArgs K (pure m) := by
  refine fun w => ⟨Steady.refl w, ?_⟩
  rintro _ ⟨⟩
  exact h

theorem keepsArgs_bind [Steady K] {x : M W Empty α} {f : α → M W Empty (M W Empty Bytes)} (hx : Keeps K x)
    (hf : ∀ a, KeepsArgs K (f a)) : KeepsArgs K (x >>= f) := by
  intro w
  have h := hx w
  rw [M.bind_apply]
  rcases hu : x w with ⟨r, u'⟩
  rw [hu] at h
  cases r with
  | ok a => exact ⟨Steady.trans h (hf a u').1, (hf a u').2⟩
  | _ => exact ⟨h, nofun⟩

theorem keeps_record [Steady K] (hE : LogKeeps K E) {lvl : Level} {args : M W Empty (M W Empty Bytes)}
    (h : KeepsArgs K args) : Keeps K (record E lvl args : M W ε Unit) := by
  intro w
  unfold record
  split
  · rename_i he
    show K w ((args >>= E.log lvl : M W Empty Unit) w).2
    obtain ⟨h1, h2⟩ := h w
    rw [M.bind_apply]
    rcases hw : args w with ⟨r, u'⟩
    rw [hw] at h1 h2
    cases r with
    | ok m => exact Steady.trans h1 (hE lvl ⟨w, he⟩ m (h2 m rfl) u')
    | _ => exact h1
  · exact Steady.refl w

theorem keeps_note [Steady K] (hE : LogKeeps K E) (lvl : Level) (b : Bytes) : Keeps K (note E lvl b : M W ε Unit) :=
  keeps_record hE (keepsArgs_pure (keeps_pure _))

theorem keeps_tryOutOfBounds [Steady R] {n : M σ Error Unit} {x : M σ OutOfBounds α} (hn : Keeps R n)
    (hx : Keeps R x) : Keeps R (tryOutOfBounds n x) := by
  refine keeps_bind (keeps_attempt hx) fun r => ?_
  cases r with
  | ok a => exact keeps_pure _
  | error e => exact keeps_bind hn fun _ => keeps_lift _

theorem keeps_tryUtf8 [Steady K] (hE : LogKeeps K E) {x : M W Utf8 α} (hx : Keeps K x) : Keeps K (tryUtf8 E x) := by
  refine keeps_bind (keeps_attempt hx) fun r => ?_
  cases r with
  | ok a => exact keeps_pure _
  | error e => exact keeps_bind (keeps_note hE _ _) fun _ => keeps_lift _

/-- One step of taking a computation apart. -/
local syntax "keep_step" : tactic
local macro_rules | `(tactic| keep_step) => `(tactic| intro _)
local macro_rules | `(tactic| keep_step) => `(tactic| split)
local macro_rules | `(tactic| keep_step) => `(tactic| apply keeps_bind)
local macro_rules | `(tactic| keep_step) => `(tactic| first
  | assumption
  | apply keeps_pure
  | apply keeps_lift
  | apply keeps_text
  | apply keeps_update
  | (apply keeps_note; assumption)
  | apply keeps_tryOutOfBounds
  | (apply keeps_tryUtf8; assumption)
  | apply keeps_attempt
  | apply keeps_mapErr
  | apply keeps_noErr
  | apply keeps_view
  | apply keeps_onLocal
  | apply keeps_debugAssertM
  | (apply keeps_record; assumption)
  | apply keepsArgs_pure
  | apply keepsArgs_bind)

/-- Take a computation apart. -/
local macro "keep" : tactic => `(tactic| repeat' (with_reducible keep_step))

/-! ## Reading -/

theorem keeps_len [Steady K] (hE : LogKeeps K E) (s : ArrayString N) :
    Keeps K (len E s : M W ε Nat) := by
  unfold len
  keep
local macro_rules | `(tactic| keep_step) => `(tactic| (apply keeps_len; assumption))

theorem keeps_asRefBytes [Steady K] (hE : LogKeeps K E) (s : ArrayString N) :
    Keeps K (asRefBytes E s : M W ε Bytes) := by
  unfold asRefBytes
  keep
local macro_rules | `(tactic| keep_step) => `(tactic| (apply keeps_asRefBytes; assumption))

theorem keeps_asRefStr [Steady K] (hE : LogKeeps K E) (s : ArrayString N) :
    Keeps K (asRefStr E s : M W ε Bytes) := by
  unfold asRefStr
  keep
local macro_rules | `(tactic| keep_step) => `(tactic| (apply keeps_asRefStr; assumption))

theorem keeps_asStr [Steady K] (hE : LogKeeps K E) (s : ArrayString N) :
    Keeps K (asStr E s : M W ε Bytes) := by
  unfold asStr
  keep
local macro_rules | `(tactic| keep_step) => `(tactic| (apply keeps_asStr; assumption))

theorem keeps_showDebug [Steady K] (hE : LogKeeps K E) (s : ArrayString N) :
    Keeps K (showDebug E s) := by
  unfold showDebug
  keep
local macro_rules | `(tactic| keep_step) => `(tactic| (apply keeps_showDebug; assumption))

theorem keeps_showDisplay [Steady K] (hE : LogKeeps K E) (s : ArrayString N) :
    Keeps K (showDisplay E s) := by
  unfold showDisplay
  keep
local macro_rules | `(tactic| keep_step) => `(tactic| (apply keeps_showDisplay; assumption))

theorem keeps_isEmpty [Steady K] (hE : LogKeeps K E) (s : ArrayString N) :
    Keeps K (isEmpty E s : M W ε Bool) := by
  unfold isEmpty
  keep
local macro_rules | `(tactic| keep_step) => `(tactic| (apply keeps_isEmpty; assumption))

theorem keeps_isInsideBoundary [Steady K] (hE : LogKeeps K E) (a b : Nat) :
    Keeps K (isInsideBoundary E a b) := by
  unfold isInsideBoundary
  keep
local macro_rules | `(tactic| keep_step) => `(tactic| (apply keeps_isInsideBoundary; assumption))

theorem keeps_noteOutOfBounds [Steady K] (hE : LogKeeps K E) :
    Keeps K (noteOutOfBounds E : M W ε Unit) := by
  unfold noteOutOfBounds
  keep
local macro_rules | `(tactic| keep_step) => `(tactic| (apply keeps_noteOutOfBounds; assumption))

theorem keeps_isCharBoundary [Steady K] (hE : LogKeeps K E) (s : ArrayString N) (i : Nat) :
    Keeps K (isCharBoundary E s i) := by
  unfold isCharBoundary
  keep
local macro_rules | `(tactic| keep_step) => `(tactic| (apply keeps_isCharBoundary; assumption))

theorem keeps_truncateStr [Steady K] (hE : LogKeeps K E) (b : Bytes) (n : Nat) :
    Keeps K (truncateStr E b n : M W ε Bytes) := by
  unfold truncateStr
  keep
local macro_rules | `(tactic| keep_step) => `(tactic| (apply keeps_truncateStr; assumption))

theorem keeps_rangeEnd [Steady K] (hE : LogKeeps K E) (r : RangeB) (s : ArrayString N) :
    Keeps K (rangeEnd E r s : M W ε Nat) := by
  unfold rangeEnd
  keep
local macro_rules | `(tactic| keep_step) => `(tactic| (apply keeps_rangeEnd; assumption))

theorem keeps_checkInside [Steady K] (hE : LogKeeps K E) (a b : Nat) :
    Keeps K (checkInside E a b) := by
  unfold checkInside
  keep
local macro_rules | `(tactic| keep_step) => `(tactic| (apply keeps_checkInside; assumption))

/-! ## Mutation -/

theorem keeps_replaceRange [Steady K] (hE : LogKeeps K E) (r : RangeB) {a : AsRefStr W} (ha : Keeps K a) :
    Keeps (Both K) (replaceRange E r a : M (ArrayString N × W) _ Unit) := by
  unfold replaceRange
  keep
local macro_rules | `(tactic| keep_step) => `(tactic| (apply keeps_replaceRange; assumption))

theorem keeps_tryPushStr [Steady K] (hE : LogKeeps K E) {a : AsRefStr W} (ha : Keeps K a) :
    Keeps (Both K) (tryPushStr E a : M (ArrayString N × W) _ Unit) := by
  unfold tryPushStr
  keep
local macro_rules | `(tactic| keep_step) => `(tactic| (apply keeps_tryPushStr; assumption))

theorem keeps_pushStrTruncate [Steady K] (hE : LogKeeps K E) {a : AsRefStr W} (ha : Keeps K a) :
    Keeps (Both K) (pushStrTruncate E a : M (ArrayString N × W) ε Unit) := by
  unfold pushStrTruncate
  keep
local macro_rules | `(tactic| keep_step) => `(tactic| (apply keeps_pushStrTruncate; assumption))

theorem keeps_tryPush [Steady K] (hE : LogKeeps K E) (c : Char) :
    Keeps (Both K) (tryPush E c : M (ArrayString N × W) _ Unit) := by
  unfold tryPush
  keep
local macro_rules | `(tactic| keep_step) => `(tactic| (apply keeps_tryPush; assumption))

theorem keeps_truncate [Steady K] (hE : LogKeeps K E) (n : Nat) :
    Keeps (Both K) (truncate E n : M (ArrayString N × W) _ Unit) := by
  unfold truncate
  keep
local macro_rules | `(tactic| keep_step) => `(tactic| (apply keeps_truncate; assumption))

theorem keeps_pop [Steady K] (hE : LogKeeps K E) :
    Keeps (Both K) (pop E : M (ArrayString N × W) ε  _) := by
  unfold pop
  keep
local macro_rules | `(tactic| keep_step) => `(tactic| (apply keeps_pop; assumption))

theorem keeps_trim [Steady K] (hE : LogKeeps K E) :
    Keeps (Both K) (trim E : M (ArrayString N × W) ε Unit) := by
  unfold trim
  keep
local macro_rules | `(tactic| keep_step) => `(tactic| (apply keeps_trim; assumption))

theorem keeps_removeScan [Steady K] (hE : LogKeeps K E) (s : ArrayString N) (fuel stop : Nat) :
    Keeps K (removeScan E s fuel stop) := by
  induction fuel generalizing stop with
  | zero => exact keeps_lift _
  | succ fuel ih =>
    unfold removeScan
    keep
local macro_rules | `(tactic| keep_step) => `(tactic| (apply keeps_removeScan; assumption))

theorem keeps_tryInsertStr [Steady K] (hE : LogKeeps K E) (i : Nat) {a : AsRefStr W} (ha : Keeps K a) :
    Keeps (Both K) (tryInsertStr E i a : M (ArrayString N × W) _ Unit) := by
  unfold tryInsertStr
  keep
local macro_rules | `(tactic| keep_step) => `(tactic| (apply keeps_tryInsertStr; assumption))

theorem keeps_remove [Steady K] (hE : LogKeeps K E) (i : Nat) :
    Keeps (Both K) (remove E i : M (ArrayString N × W) _ Char) := by
  unfold remove
  keep
local macro_rules | `(tactic| keep_step) => `(tactic| (apply keeps_remove; assumption))

theorem keeps_tryInsert [Steady K] (hE : LogKeeps K E) (i : Nat) (c : Char) :
    Keeps (Both K) (tryInsert E i c : M (ArrayString N × W) _ Unit) := by
  unfold tryInsert
  keep
local macro_rules | `(tactic| keep_step) => `(tactic| (apply keeps_tryInsert; assumption))

theorem keeps_insertStrTruncate [Steady K] (hE : LogKeeps K E) (i : Nat) {a : AsRefStr W} (ha : Keeps K a) :
    Keeps (Both K) (insertStrTruncate E i a : M (ArrayString N × W) _ Unit) := by
  unfold insertStrTruncate
  keep
local macro_rules | `(tactic| keep_step) => `(tactic| (apply keeps_insertStrTruncate; assumption))

theorem keeps_clear [Steady K] (hE : LogKeeps K E) :
    Keeps (Both K) (clear E : M (ArrayString N × W) ε Unit) := by
  unfold clear
  keep
local macro_rules | `(tactic| keep_step) => `(tactic| (apply keeps_clear; assumption))

/-! ## Constructors -/

theorem keeps_tryFromStr [Steady K] (hE : LogKeeps K E) {a : AsRefStr W} (ha : Keeps K a) :
    Keeps K (tryFromStr E a : M W _ (ArrayString N)) := by
  unfold tryFromStr
  keep
local macro_rules | `(tactic| keep_step) => `(tactic| (apply keeps_tryFromStr; assumption))

theorem keeps_fromStrTruncate [Steady K] (hE : LogKeeps K E) {a : AsRefStr W} (ha : Keeps K a) :
    Keeps K (fromStrTruncate E a : M W ε (ArrayString N)) := by
  unfold fromStrTruncate
  keep
local macro_rules | `(tactic| keep_step) => `(tactic| (apply keeps_fromStrTruncate; assumption))

theorem keeps_tryFromIteratorLoop [Steady K] (hE : LogKeeps K E) (k : Script (AsRefStr W)) (hk : ∀ a, some a ∈ k → Keeps K a) :
    Keeps (Both K) (tryFromIteratorLoop E k : M (ArrayString N × W) _ Unit) := by
  induction k with
  | nil => exact keeps_pure _
  | cons x k ih =>
    cases x with
    | none => exact keeps_lift _
    | some x =>
      have hx := hk x (by simp)
      have ih := ih fun a ha => hk a (by simp [ha])
      unfold tryFromIteratorLoop
      keep
local macro_rules | `(tactic| keep_step) => `(tactic| (apply keeps_tryFromIteratorLoop; assumption))

theorem keeps_fromIteratorTruncateLoop [Steady K] (hE : LogKeeps K E) (k : Script (AsRefStr W × AsRefStr W)) (hk : ∀ a, some a ∈ k → Keeps K a.1 ∧ Keeps K a.2) :
    Keeps (Both K) (fromIteratorTruncateLoop E k : M (ArrayString N × W) ε Unit) := by
  induction k with
  | nil => exact keeps_pure _
  | cons x k ih =>
    cases x with
    | none => exact keeps_lift _
    | some x =>
      have hx := (hk x (by simp)).1
      have hx' := (hk x (by simp)).2
      have ih := ih fun a ha => hk a (by simp [ha])
      unfold fromIteratorTruncateLoop
      keep
local macro_rules | `(tactic| keep_step) => `(tactic| (apply keeps_fromIteratorTruncateLoop; assumption))

theorem keeps_tryFromCharsLoop [Steady K] (hE : LogKeeps K E) (k : Script Char) :
    Keeps (Both K) (tryFromCharsLoop E k : M (ArrayString N × W) _ Unit) := by
  induction k with
  | nil => exact keeps_pure _
  | cons x k ih =>
    cases x with
    | none => exact keeps_lift _
    | some x =>
      unfold tryFromCharsLoop
      keep
local macro_rules | `(tactic| keep_step) => `(tactic| (apply keeps_tryFromCharsLoop; assumption))

theorem keeps_fromCharsTruncateLoop [Steady K] (hE : LogKeeps K E) (k : Script Char) :
    Keeps (Both K) (fromCharsTruncateLoop E k : M (ArrayString N × W) ε Unit) := by
  induction k with
  | nil => exact keeps_pure _
  | cons x k ih =>
    cases x with
    | none => exact keeps_lift _
    | some x =>
      unfold fromCharsTruncateLoop
      keep
local macro_rules | `(tactic| keep_step) => `(tactic| (apply keeps_fromCharsTruncateLoop; assumption))

theorem keeps_tryFromUtf16Loop [Steady K] (hE : LogKeeps K E) (fuel : Nat) (k : Option UInt16 × List UInt16) :
    Keeps (Both K) (tryFromUtf16Loop E fuel k : M (ArrayString N × W) _ Unit) := by
  induction fuel generalizing k with
  | zero => exact keeps_lift _
  | succ fuel ih =>
    unfold tryFromUtf16Loop
    keep
    all_goals exact ih _
local macro_rules | `(tactic| keep_step) => `(tactic| (apply keeps_tryFromUtf16Loop; assumption))

theorem keeps_fromUtf16TruncateLoop [Steady K] (hE : LogKeeps K E) (fuel : Nat) (k : Option UInt16 × List UInt16) :
    Keeps (Both K) (fromUtf16TruncateLoop E fuel k : M (ArrayString N × W) _ Unit) := by
  induction fuel generalizing k with
  | zero => exact keeps_lift _
  | succ fuel ih =>
    unfold fromUtf16TruncateLoop
    keep
    all_goals exact ih _
local macro_rules | `(tactic| keep_step) => `(tactic| (apply keeps_fromUtf16TruncateLoop; assumption))

theorem keeps_fromUtf16LossyTruncateLoop [Steady K] (hE : LogKeeps K E) (fuel : Nat) (k : Option UInt16 × List UInt16) :
    Keeps (Both K) (fromUtf16LossyTruncateLoop E fuel k : M (ArrayString N × W) ε Unit) := by
  induction fuel generalizing k with
  | zero => exact keeps_lift _
  | succ fuel ih =>
    unfold fromUtf16LossyTruncateLoop
    keep
    all_goals exact ih _
local macro_rules | `(tactic| keep_step) => `(tactic| (apply keeps_fromUtf16LossyTruncateLoop; assumption))

theorem keeps_tryFromIterator [Steady K] (hE : LogKeeps K E) {k : Script (AsRefStr W)} (hk : ∀ a, some a ∈ k → Keeps K a) :
    Keeps K (tryFromIterator E k : M W _ (ArrayString N)) := by
  unfold tryFromIterator
  keep
local macro_rules | `(tactic| keep_step) => `(tactic| (apply keeps_tryFromIterator; assumption))

theorem keeps_fromIteratorTruncate [Steady K] (hE : LogKeeps K E) {k : Script (AsRefStr W × AsRefStr W)} (hk : ∀ a, some a ∈ k → Keeps K a.1 ∧ Keeps K a.2) :
    Keeps K (fromIteratorTruncate E k : M W ε (ArrayString N)) := by
  unfold fromIteratorTruncate
  keep
local macro_rules | `(tactic| keep_step) => `(tactic| (apply keeps_fromIteratorTruncate; assumption))

theorem keeps_tryFromChars [Steady K] (hE : LogKeeps K E) (k : Script Char) :
    Keeps K (tryFromChars E k : M W _ (ArrayString N)) := by
  unfold tryFromChars
  keep
local macro_rules | `(tactic| keep_step) => `(tactic| (apply keeps_tryFromChars; assumption))

theorem keeps_fromCharsTruncate [Steady K] (hE : LogKeeps K E) (k : Script Char) :
    Keeps K (fromCharsTruncate E k : M W ε (ArrayString N)) := by
  unfold fromCharsTruncate
  keep
local macro_rules | `(tactic| keep_step) => `(tactic| (apply keeps_fromCharsTruncate; assumption))

theorem keeps_tryFromUtf16 [Steady K] (hE : LogKeeps K E) (l : List UInt16) :
    Keeps K (tryFromUtf16 E l : M W _ (ArrayString N)) := by
  unfold tryFromUtf16
  keep
local macro_rules | `(tactic| keep_step) => `(tactic| (apply keeps_tryFromUtf16; assumption))

theorem keeps_fromUtf16Truncate [Steady K] (hE : LogKeeps K E) (l : List UInt16) :
    Keeps K (fromUtf16Truncate E l : M W _ (ArrayString N)) := by
  unfold fromUtf16Truncate
  keep
local macro_rules | `(tactic| keep_step) => `(tactic| (apply keeps_fromUtf16Truncate; assumption))

theorem keeps_fromUtf16LossyTruncate [Steady K] (hE : LogKeeps K E) (l : List UInt16) :
    Keeps K (fromUtf16LossyTruncate E l : M W ε (ArrayString N)) := by
  unfold fromUtf16LossyTruncate
  keep
local macro_rules | `(tactic| keep_step) => `(tactic| (apply keeps_fromUtf16LossyTruncate; assumption))

/-! ## Other methods -/

theorem keeps_retain [Steady K] (hE : LogKeeps K E) (f : Pred φ) (q : φ) :
    Keeps (Both K) (retain E f q : M (ArrayString N × W) ε Unit) := by
  unfold retain
  keep
local macro_rules | `(tactic| keep_step) => `(tactic| (apply keeps_retain; assumption))

theorem keeps_drain [Steady K] (hE : LogKeeps K E) (r : RangeB) :
    Keeps (Both K) (drain E r : M (ArrayString N × W) _ _) := by
  unfold drain
  keep
local macro_rules | `(tactic| keep_step) => `(tactic| (apply keeps_drain; assumption))

theorem keeps_splitOff [Steady K] (hE : LogKeeps K E) (i : Nat) :
    Keeps (Both K) (splitOff E i : M (ArrayString N × W) _ _) := by
  unfold splitOff
  keep
local macro_rules | `(tactic| keep_step) => `(tactic| (apply keeps_splitOff; assumption))

theorem keeps_fromStr [Steady K] (hE : LogKeeps K E) (b : Bytes) :
    Keeps K (fromStr E b : M W _ (ArrayString N)) := by
  unfold fromStr
  keep
local macro_rules | `(tactic| keep_step) => `(tactic| (apply keeps_fromStr; assumption))

theorem keeps_from_ [Steady K] (hE : LogKeeps K E) (b : Bytes) :
    Keeps K (from_ E b : M W ε (ArrayString N)) := by
  unfold from_
  keep
local macro_rules | `(tactic| keep_step) => `(tactic| (apply keeps_from_; assumption))

theorem keeps_asMutStr [Steady K] (hE : LogKeeps K E) (e : Bytes → Bytes) :
    Keeps (Both K) (asMutStr E e : M (ArrayString N × W) ε Unit) := by
  unfold asMutStr
  keep
local macro_rules | `(tactic| keep_step) => `(tactic| (apply keeps_asMutStr; assumption))

theorem keeps_indexMut [Steady K] (hE : LogKeeps K E) (i : IdxU8) (e : Bytes → Bytes) :
    Keeps (Both K) (indexMut E i e : M (ArrayString N × W) ε Unit) := by
  unfold indexMut
  keep
local macro_rules | `(tactic| keep_step) => `(tactic| (apply keeps_indexMut; assumption))

theorem keeps_index [Steady K] (hE : LogKeeps K E) (s : ArrayString N) (i : IdxU8) :
    Keeps K (index E s i : M W ε Bytes) := by
  unfold index
  keep
local macro_rules | `(tactic| keep_step) => `(tactic| (apply keeps_index; assumption))

theorem keeps_eqStr [Steady K] (hE : LogKeeps K E) (s : ArrayString N) (b : Bytes) :
    Keeps K (eqStr E s b : M W ε Bool) := by
  unfold eqStr
  keep
local macro_rules | `(tactic| keep_step) => `(tactic| (apply keeps_eqStr; assumption))

theorem keeps_hash [Steady K] (hE : LogKeeps K E) {η : Type} (H : Hasher η) (s : ArrayString N) (h : η) :
    Keeps K (hash E H s h : M W ε η) := by
  unfold hash
  keep
local macro_rules | `(tactic| keep_step) => `(tactic| (apply keeps_hash; assumption))

theorem keeps_display [Steady K] (hE : LogKeeps K E) (s : ArrayString N) :
    Keeps K (display E s) := by
  unfold display
  keep
local macro_rules | `(tactic| keep_step) => `(tactic| (apply keeps_display; assumption))

theorem keeps_writeStr [Steady K] (hE : LogKeeps K E) (b : Bytes) :
    Keeps (Both K) (writeStr E b : M (ArrayString N × W) _ Unit) := by
  unfold writeStr
  keep
local macro_rules | `(tactic| keep_step) => `(tactic| (apply keeps_writeStr; assumption))

theorem keeps_writeFmt [Steady K] (hE : LogKeeps K E) (ws : List Bytes) :
    Keeps (Both K) (writeFmt E (ws.map .lit) : M (ArrayString N × W) _ Unit) := by
  unfold writeFmt
  induction ws with
  | nil => exact keeps_pure _
  | cons w ws ih =>
    rw [List.map_cons, Fmt.write]
    split
    · exact ih
    · exact keeps_bind (keeps_writeStr hE w) fun _ => ih
local macro_rules | `(tactic| keep_step) => `(tactic| (apply keeps_writeFmt; assumption))

theorem keeps_extendChars [Steady K] (hE : LogKeeps K E) (k : Script Char) :
    Keeps (Both K) (extendChars E k : M (ArrayString N × W) ε Unit) := by
  unfold extendChars
  keep
local macro_rules | `(tactic| keep_step) => `(tactic| (apply keeps_extendChars; assumption))

theorem keeps_extendStrs [Steady K] (hE : LogKeeps K E) {k : Script (AsRefStr W × AsRefStr W)} (hk : ∀ a, some a ∈ k → Keeps K a.1 ∧ Keeps K a.2) :
    Keeps (Both K) (extendStrs E k : M (ArrayString N × W) ε Unit) := by
  unfold extendStrs
  keep
local macro_rules | `(tactic| keep_step) => `(tactic| (apply keeps_extendStrs; assumption))

theorem keeps_drainEnds [Steady K] (hE : LogKeeps K E) (es : List End) :
    Keeps (Both K) (drainEnds E es : M (ArrayString N × W) ε _) := by
  induction es with
  | nil => exact keeps_pure _
  | cons x es ih =>
    cases x <;> unfold drainEnds <;> keep
local macro_rules | `(tactic| keep_step) => `(tactic| (apply keeps_drainEnds; assumption))

theorem keeps_exec [Steady K] (hE : LogKeeps K E) (op : Op) :
    Keeps (Both K) (exec E op : M (ArrayString N × W) _ _) := by
  have h1 : ∀ (ws : Script (List Char)) (a : AsRefStr W),
      some a ∈ ws.map (Option.map fun w => text (utf8 w)) → Keeps K a := by
    intro ws a h
    obtain ⟨o, _, ho⟩ := List.mem_map.1 h
    cases o <;> cases ho
    exact keeps_text _
  have h2 : ∀ (ws : Script (List Char)) (a : AsRefStr W × AsRefStr W),
      some a ∈ ws.map (Option.map fun w => same (utf8 w)) → Keeps K a.1 ∧ Keeps K a.2 := by
    intro ws a h
    obtain ⟨o, _, ho⟩ := List.mem_map.1 h
    cases o <;> cases ho
    exact ⟨keeps_text _, keeps_text _⟩
  have h3 : ∀ (ws : Script (List Char × List Char)) (a : AsRefStr W × AsRefStr W),
      some a ∈ ws.map (Option.map fun p => (text (utf8 p.1), text (utf8 p.2))) → Keeps K a.1 ∧ Keeps K a.2 := by
    intro ws a h
    obtain ⟨o, _, ho⟩ := List.mem_map.1 h
    cases o <;> cases ho
    exact ⟨keeps_text _, keeps_text _⟩
  cases op
  case writeFmt ws =>
    have := keeps_writeFmt hE (N := N) (ws.map utf8)
    rw [List.map_map] at this
    exact keeps_bind (keeps_mapErr this) fun _ => keeps_pure _
  all_goals unfold exec
  all_goals dsimp only []
  all_goals try unfold construct
  all_goals try unfold exec.construct'
  all_goals try unfold call
  all_goals try unfold query
  all_goals keep
  · exact h1 _ _ (by assumption)
  · exact h3 _ _ (by assumption)
  · exact h2 _ _ (by assumption)
  · exact h2 _ _ (by assumption)

end Verif.Logged
