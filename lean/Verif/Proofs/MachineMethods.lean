import Verif.Proofs.MachineCalls
import Verif.Proofs.Iter

/-! Loads and stores: the methods that look at the text. -/

namespace Verif.Machine
open Spec
open Borrow (Rules Tag World Settled settled_ok settled_err settled_panic emptyLit)

variable {R : Rules} {N : Nat} {ε ε' α β φ : Type} {K : Nat} {b : Bytes} {g : Nat → UInt8} {E : (Nat → UInt8) → Prop}
  {m : M (Mem R N) ε α} {n : M (World R N) ε β} {Q : α → β → (Nat → UInt8) → Prop}
  {t u self arg : Tag} {lo hi k idx : Nat} {cs : List Char}

theorem sim_look_then {f : Bytes → M (Mem R N) ε α} {f' : M (World R N) ε β} (h : Holds (strOf N g) cs)
    (hf : Sim K b g (f (utf8 cs)) f' Q E) : Sim K b g (look self >>= f) (Borrow.look self >>= fun _ => f') Q E :=
  sim_bind (sim_look h) fun _ _ _ ⟨h1, h2⟩ => by subst h1 h2; exact hf

theorem sim_text_right {f' : Bytes → M (World R N) ε β} (h : Holds (strOf N g) cs)
    (hf : Sim K b g m (f' (utf8 cs)) Q E) :
    Sim K b g m (Borrow.get >>= fun s => M.lift s.asStr >>= f') Q E :=
  sim_get (sim_skip_right h.asStr hf)

theorem sim_boundary_then {f : Bool → M (Mem R N) ε α} {f' : M (World R N) ε β} (h : Holds (strOf N g) cs)
    (hf : Sim K b g (f (Str.isCharBoundary (utf8 cs) idx)) f' Q E) :
    Sim K b g (selfBoundary self idx >>= f) (Borrow.selfBoundary self idx >>= fun _ => f') Q E :=
  sim_bind (sim_selfBoundary h) fun _ _ _ ⟨h1, h2⟩ => by subst h1 h2; exact hf

theorem sim_check_then [ErrFrom Utf8 ε] {f : Unit → M (Mem R N) ε α} {f' : Unit → M (World R N) ε β}
    (h : Holds (strOf N g) cs) (hE : E g) (hf : IsBoundary cs idx → Sim K b g (f ()) (f' ()) Q E) :
    Sim K b g (M.tryM (isCharBoundary self idx) >>= f) (M.tryM (Borrow.isCharBoundary self idx) >>= f') Q E :=
  sim_bind (sim_tryM (sim_isCharBoundary h hE)) fun _ _ _ ⟨h1, h2⟩ => by
    subst h1
    refine hf (Classical.byContradiction fun hc => ?_)
    rw [h.isCharBoundary_false hc] at h2
    cases h2

theorem subU8_no {a c : UInt8} (e : ε) : (subU8 a c : Res ε UInt8) ≠ .err e := by
  unfold subU8 overflow
  split
  · nofun
  · split <;> nofun

theorem debugAssert_no {c : Bool} (e : ε) : (debugAssert c : Res ε Unit) ≠ .err e := by
  unfold debugAssert
  split
  · nofun
  · split <;> nofun

theorem sim_truncate {size : Nat} (hg : Valid N g) :
    Sim K b g (truncate self size : M (Mem R N) Utf8 _) (Borrow.truncate self size) (fun a c _ => a = c) (fun _ => True) := by
  obtain ⟨cs, hs⟩ := hg
  refine sim_len_then <| sim_bind (sim_attempt (E := fun _ => True) (sim_isCharBoundary hs trivial)) fun x y g' h => ?_
  refine sim_then sim_retagUnique fun _ => sim_passUnique fun _ => ?_
  rcases h with ⟨_, _, rfl, rfl, _⟩ | ⟨_, rfl, rfl, _⟩
  · exact sim_passUnique fun _ => sim_setSize rfl
  · exact sim_lift (fun _ h => by cases h) fun _ _ => trivial

theorem sim_clear : Sim K b g (clear self : M (Mem R N) ε _) (Borrow.clear self) (fun a c _ => a = c) E := sim_setSize rfl

theorem sim_pop (hg : Valid N g) : Sim K b g (pop self : M (Mem R N) ε _) (Borrow.pop self) (Good N) E := by
  obtain ⟨cs, hs⟩ := hg
  refine sim_look_then hs <| sim_text_right hs <| sim_then sim_retagUnique fun _ => sim_passUnique fun _ => ?_
  rw [chars_utf8]
  rcases List.eq_nil_or_concat cs with rfl | ⟨cs, c, rfl⟩
  · exact sim_pure ⟨rfl, _, hs⟩
  · rw [List.concat_eq_append] at hs ⊢
    simp only [List.getLast?_append, List.getLast?_singleton, Option.some_or]
    refine sim_passUnique fun _ => sim_loadByte rfl <| sim_get <| sim_once subU8_no fun z hz => ?_
    refine sim_bind (sim_setSize (Q := fun _ _ g' => Valid N g') ?_) fun _ _ _ h => sim_pure ⟨rfl, h⟩
    refine valid_mk strOf_size (hs.shrink ?_)
    have hlen := hs.len
    simp only [byteLen_append, byteLen_cons, byteLen_nil] at hlen
    have h4 := utf8Size_le_four c
    have hl : (intoLossy (Str.lenUtf8 c)).toNat = c.utf8Size := intoLossy_toNat (by unfold Str.lenUtf8; omega)
    have hsz : (g N).toNat = byteLen cs + c.utf8Size := hlen
    unfold subU8 at hz
    rw [if_pos (by rw [hl]; show _ ≤ (g N).toNat; omega)] at hz
    cases hz
    show (g N - _).toNat = _
    rw [UInt8.toNat_sub_of_le _ _ (by rw [UInt8.le_iff_toNat_le]; omega)]
    omega

variable [ValidCapacity N]

/-- A call of `replace_range` with the empty literal, whose outcome is not looked at. -/
theorem sim_removed {r : RangeB} (hg : Valid N g) :
    Sim K b g (M.attempt (callMut self fun self => replaceRangeOn self emptyLit r 0) : M (Mem R N) ε' _)
      (M.attempt (Borrow.callMut self fun self => Borrow.replaceRangeOn self emptyLit r [])) (fun _ _ => Valid N) E :=
  (sim_attempt (sim_callMut fun _ => sim_replaceRangeOn part_nil hg)).mono (fun _ _ _ h => by
    rcases h with ⟨_, _, _, _, h⟩ | ⟨_, _, _, h⟩ <;> exact h) fun _ h => h

theorem sim_trim (hg : Valid N g) :
    Sim K b g (trim self : M (Mem R N) ε _) (Borrow.trim self) (fun a c _ => a = c) E := by
  have hg' := hg
  obtain ⟨cs, hs⟩ := hg
  refine sim_len_then <| sim_look_then hs <| sim_text_right hs <| sim_len_then <| sim_look_then hs ?_
  generalize ArrayString.trimEnd _ _ _ = o
  cases o with
  | none => exact sim_setSize rfl
  | some stop =>
    exact sim_bind (sim_removed hg') fun _ _ _ h => sim_bind (sim_removed h) fun _ _ _ _ => sim_pure rfl

omit [ValidCapacity N] in
theorem sim_removeScan {stop : Nat} (hs : Holds (strOf N g) cs) :
    Sim K b g (removeScan self stop : M (Mem R N) Error Nat) (Borrow.removeScan self stop)
      (fun a c g' => a = c ∧ g' = g) E := by
  obtain ⟨d, hd⟩ : ∃ d, usizeMax - stop = d := ⟨_, rfl⟩
  induction d generalizing stop with
  | zero =>
    unfold removeScan Borrow.removeScan
    refine sim_boundary_then hs <| sim_text_right hs ?_
    split
    · exact sim_pure ⟨rfl, rfl⟩
    · rw [if_neg (by omega), if_neg (by omega)]
      exact sim_once overflow_no fun _ _ => sim_boundary_then hs <| sim_pure ⟨rfl, rfl⟩
  | succ d ih =>
    unfold removeScan Borrow.removeScan
    refine sim_boundary_then hs <| sim_text_right hs ?_
    split
    · exact sim_pure ⟨rfl, rfl⟩
    · rw [if_pos (by omega), if_pos (by omega)]
      exact ih (by omega)

theorem sim_remove (hg : Valid N g) :
    Sim K b g (remove self idx : M (Mem R N) _ _) (Borrow.remove self idx) (Good N) (Valid N) := by
  have hg' := hg
  obtain ⟨cs, hs⟩ := hg
  refine sim_len_then <| sim_try_then hg' fun _ _ => sim_check_then hs hg' fun _ => sim_len_then <|
    sim_once (fun e => by split; nofun; exact addUsize_no e) fun stop _ => ?_
  refine sim_bind (sim_removeScan hs) fun stop _ _ ⟨h1, h2⟩ => ?_
  subst h1 h2
  refine sim_look_then hs <| sim_text_right hs ?_
  cases Str.get? (utf8 cs) idx stop with
  | none => exact sim_lift (fun _ h => by cases h) fun _ _ => hg'
  | some sub =>
    dsimp only
    cases (Str.chars sub).head? with
    | none => exact sim_lift (fun _ h => by cases h) fun _ _ => hg'
    | some ch =>
      exact sim_once addUsize_no fun _ _ => sim_bind (sim_callMut fun _ => sim_replaceRangeOn part_nil hg')
        fun _ _ _ h => sim_pure ⟨rfl, h⟩

/-- What is known of a new string: it is the same, and it holds a text. -/
def Made (P : (Nat → UInt8) → Prop) (a c : ArrayString N) (g' : Nat → UInt8) : Prop :=
  a = c ∧ P g' ∧ ∃ cs, Holds a cs

omit [ValidCapacity N] in
theorem valid_inner {s : ArrayString N} (h : Holds s cs) : Valid N (innerBytes s lo g) := valid_mk (strOf_inner h.1) h

omit [ValidCapacity N] in
/-- A constructor returns the local variable. -/
theorem sim_made {P : (Nat → UInt8) → Prop} {m : M (Mem R N) ε (α × ArrayString N)} {n : M (World R N) ε (β × ArrayString N)}
    (h : Sim K b g m n (AfterLocal (fun _ _ => Valid N) P) E) :
    Sim K b g (m >>= fun r => pure r.2) (n >>= fun r => pure r.2) (Made P) E :=
  sim_bind h fun _ _ _ ⟨h1, h2, _, h4, h5⟩ => sim_pure ⟨h1, h2, by rw [← h4]; exact h5⟩

theorem sim_tryFromStr {x : Bytes} (hx : sliceOf g lo x.length = x) (hu : ∃ w, x = utf8 w) (hk : hi = lo + x.length) :
    Sim K b g (tryFromStr arg lo hi : M (Mem R N) _ _) (Borrow.tryFromStr arg lo hi x) (Made (· = g)) (· = g) := by
  subst hk
  refine sim_passShared fun t => sim_made <| sim_withLocal holds_new.1 (E' := Valid N) fun u => sim_callMut fun s => ?_
  rw [Nat.add_sub_cancel_left, hx]
  exact (sim_tryPushStr ⟨List.prefix_refl _, hu⟩ (valid_inner holds_new)).mono (fun _ _ _ h => h.2) fun _ h => h

omit [ValidCapacity N] in
theorem slice_part {pre mid post : List Char} (hs : Holds (strOf N g) (pre ++ mid ++ post)) :
    sliceOf g (byteLen pre) (utf8 mid).length = utf8 mid := by
  have h1 := valid_bytes hs
  have h2 := valid_length hs
  rw [h2] at h1
  refine List.ext_getElem? fun i => ?_
  have := congrArg (·[byteLen pre + i]?) h1
  simp only [sliceOf_getElem?, utf8_append, List.append_assoc, List.length_append, length_utf8] at this ⊢
  by_cases h : i < byteLen mid
  · rw [if_pos h]
    rw [if_pos (by omega), List.getElem?_append_right (by simp), List.getElem?_append_left (by simp; omega)] at this
    simpa using this
  · rw [if_neg h, List.getElem?_eq_none (by simp; omega)]

theorem sim_drained {pre mid post : List Char} {start stop : Nat} (hs : Holds (strOf N g) (pre ++ mid ++ post))
    (h1 : start = byteLen pre) (h2 : stop = byteLen pre + byteLen mid) :
    Sim K b g (drained self start stop : M (Mem R N) _ _) (Borrow.drained self start stop (utf8 mid)) (Made (· = g)) (· = g) := by
  subst h1 h2
  have hl := valid_length hs
  simp only [utf8_append, List.length_append, length_utf8] at hl
  refine sim_bind (sim_asStr hs) fun ⟨a, k⟩ ⟨c, _⟩ _ ⟨e1, e2, e3⟩ => ?_
  dsimp only at e2
  cases e1
  subst e2 e3
  refine sim_promised (fun _ => ?_) <| sim_then sim_through fun _ => ?_
  · rw [valid_bytes hs, Str.getUnchecked, if_pos ⟨by omega, by simp [utf8_append],
      (isCharBoundary_utf8 _ _).2 ⟨pre, mid ++ post, by simp, rfl⟩,
      (isCharBoundary_utf8 _ _).2 ⟨pre ++ mid, post, rfl, by simp⟩⟩]
    nofun
  exact sim_tryFromStr (slice_part hs) ⟨_, rfl⟩ (by simp)

theorem sim_drain {r : RangeB} (hg : Valid N g) :
    Sim K b g (drain self r : M (Mem R N) _ _) (Borrow.drain self r)
      (fun a c g' => a = c ∧ Valid N g' ∧ ∃ cs, Holds a.inner cs) (Valid N) := by
  have hg' := hg
  obtain ⟨cs, hs⟩ := hg
  refine sim_bind sim_rangeEnd fun stop _ _ ⟨_, h2, h3⟩ => ?_
  subst h2 h3
  generalize ArrayString.rangeStart r = start
  refine sim_try_then hg' fun _ _ => sim_len_then <| sim_try_then hg' fun _ _ => sim_check_then hs hg' fun _ =>
    sim_check_then hs hg' fun _ => sim_len_then <| sim_once debugAssert_no fun _ _ => sim_text_right hs <|
    sim_boundary_then hs <| sim_once debugAssert_no fun _ _ => sim_boundary_then hs <|
    sim_once debugAssert_no fun _ _ => sim_known (fun slice hsl => ?_)
      (by unfold Str.getUnchecked; split; exact .inr ⟨_, rfl⟩; exact .inl rfl)
  unfold Str.getUnchecked at hsl
  split at hsl
  · rename_i hc
    obtain ⟨c1, c2, c3, c4⟩ := hc
    obtain ⟨pre, mid, post, rfl, rfl, rfl⟩ := cut_three ((isCharBoundary_utf8 _ _).1 c3) ((isCharBoundary_utf8 _ _).1 c4) c1
    have : slice = utf8 mid := by
      cases hsl
      simp [utf8_append, Nat.add_sub_cancel_left, List.append_assoc]
    subst this
    refine sim_bind (sim_tryM ((sim_drained hs rfl rfl).mono (fun _ _ _ h => h) fun g' h => ?_)) fun _ _ _ ⟨h1, h2, h3⟩ => ?_
    · rw [h]; exact hg'
    · subst h1 h2
      exact sim_bind (sim_callMut fun _ => sim_replaceRangeOn part_nil hg') fun _ _ _ h => sim_pure ⟨rfl, h, h3⟩
  · cases hsl

theorem sim_splitOff {at_ : Nat} (hg : Valid N g) :
    Sim K b g (splitOff self at_ : M (Mem R N) _ _) (Borrow.splitOff self at_) (Made (Valid N)) (Valid N) :=
  sim_bind (sim_callMut fun _ => sim_drain hg) fun _ _ _ ⟨h1, h2, h3⟩ => by
    subst h1
    exact sim_pure ⟨rfl, h2, h3⟩

/-! ## `retain` -/

omit [ValidCapacity N] in
/-- A read of a range is a read of its first part and of the rest. -/
theorem sim_split {mid : Nat} {f : Unit → M (World R N) ε β} (h1 : lo ≤ mid) (h2 : mid ≤ hi)
    (h : Sim K b g m (Borrow.readAt t lo mid >>= fun _ => Borrow.readAt t mid hi >>= f) Q E) :
    Sim K b g m (Borrow.readAt t lo hi >>= f) Q E := by
  intro s hs ht r w' e hr
  refine h s hs ht r w' ?_ hr
  rw [← e]
  show M.bind _ (fun _ => M.bind _ _) _ = M.bind _ _ _
  change M.bind _ _ _ = _ at e
  unfold M.bind Borrow.readAt Borrow.touch at e ⊢
  by_cases ha : (List.range' lo (hi - lo)).all (fun l => (R.read t ((abs s).mem l)).isSome) = true
  · have hall := List.all_eq_true.1 ha
    have hb : (List.range' lo (mid - lo)).all (fun l => (R.read t ((abs s).mem l)).isSome) = true :=
      List.all_eq_true.2 fun l hl => hall l (by simp only [List.mem_range'_1] at hl ⊢; omega)
    rw [if_pos ha, if_pos hb]
    dsimp only
    rw [if_pos (List.all_eq_true.2 fun l hl => by
      simp only [List.mem_range'_1] at hl
      rw [if_neg (by omega)]
      exact hall l (by simp only [List.mem_range'_1]; omega))]
    dsimp only
    congr 2
    funext l
    by_cases c1 : mid ≤ l ∧ l < hi
    · rw [if_pos c1, if_neg (by omega), if_pos (by omega)]
    · rw [if_neg c1]
      by_cases c2 : lo ≤ l ∧ l < mid
      · rw [if_pos c2, if_pos (by omega)]
      · rw [if_neg c2, if_neg (by omega)]
  · rw [if_neg ha] at e
    cases e
    exact not_settled_ub hr

/-- The first byte of a character tells how many follow. -/
theorem first_byte (c : Char) : ∃ x xs, String.utf8EncodeChar c = x :: xs ∧ c.utf8Size = 1 + xs.length ∧
    (if x.toNat < 128 then 0 else if x.toNat < 0xE0 then 1 else if x.toNat < 0xF0 then 2 else 3) = xs.length := by
  have hr := toNat_range c
  rw [utf8Size_eq]
  unfold String.utf8EncodeChar
  simp only [show c.val.toNat = c.toNat from rfl]
  generalize c.toNat = v at *
  split
  · refine ⟨_, _, rfl, rfl, ?_⟩
    simp only [UInt8.toNat_ofNat']
    rw [if_pos (by omega)]
    rfl
  split
  · refine ⟨_, _, rfl, rfl, ?_⟩
    simp only [UInt8.toNat_ofNat']
    rw [if_neg (by omega), if_pos (by omega)]
    rfl
  split
  · refine ⟨_, _, rfl, rfl, ?_⟩
    simp only [UInt8.toNat_ofNat']
    rw [if_neg (by omega), if_neg (by omega), if_pos (by omega)]
    rfl
  · refine ⟨_, _, rfl, rfl, ?_⟩
    simp only [UInt8.toNat_ofNat']
    rw [if_neg (by omega), if_neg (by omega), if_neg (by omega)]
    rfl

omit [ValidCapacity N] in
theorem sim_nextChar {pre rest : List Char} {c : Char} {f : Char × Nat → M (Mem R N) ε α} {f' : Unit → M (World R N) ε β}
    (hb : b = utf8 (pre ++ c :: rest)) (h : Sim K b g (f (c, byteLen pre + Str.lenUtf8 c)) (f' ()) Q E) :
    Sim K b g (nextChar t (byteLen pre) >>= f)
      (Borrow.readAt t (N + 1 + byteLen pre) (N + 1 + byteLen pre + Str.lenUtf8 c) >>= f') Q E := by
  refine sim_with_text fun ht => ?_
  obtain ⟨x, xs, e1, e2, e3⟩ := first_byte c
  have hg : ∀ i, i < 1 + xs.length → g (N + 1 + byteLen pre + i) = (x :: xs)[i]?.getD 0 := by
    intro i hi
    have := ht (byteLen pre + i) (by rw [hb]; simp; omega)
    rw [hb, utf8_append, utf8_cons, List.getElem?_append_right (by simp), e1,
      List.getElem?_append_left (by simp; omega)] at this
    rw [Nat.add_assoc, show (x :: xs)[i]? = _ from (by simpa using this)]
    rfl
  unfold nextChar Str.lenUtf8
  rw [e2, bind_assoc]
  refine sim_split (mid := N + 1 + byteLen pre + 1) (by omega) (by omega) ?_
  refine sim_loadByte rfl ?_
  have hx : g (N + 1 + byteLen pre) = x := hg 0 (by omega)
  rw [hx, e3, bind_assoc]
  refine sim_load_then (by omega) ?_
  have hxs : sliceOf g (N + 1 + (byteLen pre + 1)) xs.length = xs := by
    refine List.ext_getElem? fun i => ?_
    rw [sliceOf_getElem?]
    split
    · rename_i hi
      have := hg (1 + i) (by omega)
      rw [show N + 1 + (byteLen pre + 1) + i = N + 1 + byteLen pre + (1 + i) by omega, this, Nat.add_comm 1 i,
        List.getElem?_cons_succ, List.getElem?_eq_getElem hi]
      rfl
    · rw [List.getElem?_eq_none (by omega)]
  have hn := nextCodePoint_encode c []
  rw [List.append_nil, e1, e2] at hn
  rw [hxs, hn]
  dsimp only
  rw [Char.ofNat_toNat]
  unfold Str.lenUtf8 at h
  rw [e2] at h
  exact h

theorem sim_retainLoop {out : Tag} {f : ArrayString.Pred φ} {q : φ} {fuel : Nat} {pre rest : List Char}
    (hb : b = utf8 (pre ++ rest)) (hf : rest.length ≤ fuel) (hg : Valid N g) :
    Sim K b g (retainLoop t out f b.length fuel q (byteLen pre) : M (Mem R N) ε φ)
      (Borrow.retainLoop t out f q (byteLen pre) rest) (Good N) E := by
  induction rest generalizing fuel pre q g with
  | nil =>
    have : ¬ byteLen pre < b.length := by rw [hb]; simp
    cases fuel <;> unfold retainLoop Borrow.retainLoop <;> rw [if_neg this] <;> exact sim_pure ⟨rfl, hg⟩
  | cons c rest ih =>
    cases fuel with
    | zero => simp at hf
    | succ fuel =>
      have : byteLen pre < b.length := by rw [hb]; simp; have := c.utf8Size_pos; omega
      have hb' : b = utf8 ((pre ++ [c]) ++ rest) := by rw [hb]; simp
      have hp : byteLen pre + Str.lenUtf8 c = byteLen (pre ++ [c]) := by simp [Str.lenUtf8]
      have hf' : rest.length ≤ fuel := by simpa using hf
      unfold retainLoop Borrow.retainLoop
      rw [if_pos this]
      refine sim_nextChar hb ?_
      dsimp only
      rw [hp]
      rcases f q c with _ | ⟨_ | _, q⟩
      · exact sim_lift (fun _ h => by cases h) fun _ h => by cases h
      · exact ih hb' hf' hg
      · refine sim_bind (sim_attempt (sim_callMut fun _ => sim_tryPush hg)) fun _ _ _ h => ?_
        rcases h with ⟨_, _, rfl, rfl, _, h⟩ | ⟨_, rfl, rfl, h⟩
        · exact ih hb' hf' h
        · exact sim_pure ⟨rfl, h⟩

omit [ValidCapacity N] in
theorem strOf_whole {s : ArrayString N} (h : s.array.length = N) :
    strOf N (stored g 0 ((List.range' 0 (N + 1)).map (bytesOf s))) = s := by
  refine Eq.trans (strOf_congr fun l hl => ?_) (strOf_bytesOf h)
  have := stored_in (g := g) (lo := 0) (x := (List.range' 0 (N + 1)).map (bytesOf s)) (i := l) (by simp; omega)
  rw [Nat.zero_add] at this
  rw [this]
  simp

omit [ValidCapacity N] in
theorem sim_storeString {s : ArrayString N} {f : Unit → M (Mem R N) ε α} {f' : Unit → M (World R N) ε β}
    (h : s.array.length = N)
    (hf : ∀ g', strOf N g' = s → Sim K b g' (f ()) (f' ()) Q E) :
    Sim K b g (storeString t s >>= f) (Borrow.writeAt t 0 (N + 1) >>= fun _ => Borrow.put s >>= f') Q E := by
  rw [← bind_assoc (Borrow.writeAt _ _ _)]
  exact sim_bind (sim_store (Q := fun _ _ g' => strOf N g' = s) (by simp) (by simp) (strOf_whole h) (strOf_whole h))
    fun _ _ g' h => hf g' h

theorem sim_retained {f : ArrayString.Pred φ} {q : φ} (hg : Valid N g) :
    Sim K b g (retained self f q : M (Mem R N) ε _) (Borrow.retained self f q)
      (AfterLocal (Good N) (· = g)) (· = g) := by
  obtain ⟨cs, hs⟩ := hg
  refine sim_bind (sim_asStr hs) fun ⟨a, k⟩ ⟨c, _⟩ _ ⟨e1, e2, e3⟩ => ?_
  dsimp only at e2
  cases e1
  subst e2 e3
  refine sim_text_right hs <| sim_then sim_through fun _ => ?_
  refine sim_withLocal (E' := fun _ => True) holds_new.1 fun u => ?_
  rw [chars_utf8, Nat.sub_zero, valid_bytes hs, valid_length hs]
  refine sim_retainLoop (pre := []) rfl ?_ (valid_inner holds_new)
  rw [length_utf8]
  exact length_le_byteLen cs

theorem sim_retain {f : ArrayString.Pred φ} {q : φ} (hg : Valid N g) :
    Sim K b g (retain self f q : M (Mem R N) ε _) (Borrow.retain self f q) (fun a c _ => a = c) (fun _ => True) := by
  refine sim_bind ((sim_retained hg).mono (fun _ _ _ h => h) fun _ _ => trivial) fun ⟨q, s⟩ ⟨q', s'⟩ _ ⟨h1, h2, g2, h3, h4⟩ => ?_
  dsimp only at h1 h3 h4 ⊢
  obtain ⟨h4, cs, h5⟩ := h4
  subst h1 h4
  exact sim_storeString (h3 ▸ h5.1) fun _ _ => sim_pure rfl

end Verif.Machine
