import Verif.Proofs.BorrowChars
import Verif.Proofs.MachineOps

/-! Loads and stores: the methods that look at the characters one byte at a time. -/

namespace Verif.Machine
open Spec
open Borrow (Rules Tag World Settled settled_ok settled_err settled_panic emptyLit)

variable {R : Rules} {N : Nat} {ε ε' α β φ : Type} {K : Nat} {b : Bytes} {g : Nat → UInt8} {E : (Nat → UInt8) → Prop}
  {m : M (Mem R N) ε α} {n : M (World R N) ε β} {Q : α → β → (Nat → UInt8) → Prop}
  {t u self arg caller : Tag} {lo hi k idx : Nat} {cs : List Char}

/-- The bytes loaded are those that the accesses on the other side are for. -/
theorem sim_scan {h : Nat → UInt8} {sc : Scan α} {v : α} (hh : ∀ l, lo ≤ l → l < hi → h l = g l)
    (he : sc.eval g lo hi = .ok v) :
    Sim K b g (scan t sc : M (Mem R N) ε α) (Borrow.scan t h lo hi sc) (fun x _ g' => x = v ∧ g' = g) E := by
  induction sc with
  | done a => cases he; exact sim_pure ⟨rfl, rfl⟩
  | ub => cases he
  | byte l k ih =>
    unfold Scan.eval at he
    split at he
    · next hl =>
      unfold scan Borrow.scan
      rw [if_pos hl, hh l hl.1 hl.2]
      exact sim_then sim_retagShared fun p => sim_loadByte rfl (ih _ he)
    · cases he

theorem bytes_same {l : Nat} (h : l < N) : bytesOf (strOf N g) l = g l := by
  unfold bytesOf strOf
  rw [if_pos h]
  simp [h]

theorem sim_lookFor {sc : Nat → Scan φ} {v : φ} {f : φ → M (Mem R N) ε α} {f' : M (World R N) ε β}
    (h : Holds (strOf N g) cs) (he : (sc (g N).toNat).eval g 0 (g N).toNat = .ok v)
    (hf : Sim K b g (f v) f' Q E) :
    Sim K b g (Chars.chars self >>= fun p => scan p.1 (sc p.2) >>= f)
      (Borrow.Chars.lookFor self sc >>= fun _ => f') Q E := by
  have hl := valid_le h
  unfold Chars.chars Borrow.Chars.lookFor
  rw [bind_assoc, bind_assoc]
  refine sim_bind (sim_asStr h) fun ⟨a, n⟩ _ _ ⟨h1, h2, h3⟩ => ?_
  subst h1 h3
  dsimp only at h2 ⊢
  subst h2
  rw [bind_assoc, bind_assoc]
  refine sim_then sim_through fun a => ?_
  rw [bind_assoc]
  refine sim_get ?_
  show Sim K b _ (scan a _ >>= f) _ Q E
  exact sim_bind (sim_scan (fun l _ h => bytes_same (by omega)) he) fun _ _ _ ⟨h1, h2⟩ => by
    subst h1 h2; exact hf

theorem sim_chars_pop (hg : Valid N g) : Sim K b g (Chars.pop self : M (Mem R N) ε _) (Borrow.Chars.pop self) (Good N) E := by
  obtain ⟨cs, hs⟩ := hg
  refine sim_lookFor hs (Scan.last_text (Nat.le_refl _) (Nat.le_refl _) (Nat.zero_le _) (valid_bytes hs)) <| sim_text_right hs <| sim_then sim_retagUnique fun _ => sim_passUnique fun _ => ?_
  rw [chars_utf8]
  rcases List.eq_nil_or_concat cs with rfl | ⟨cs, c, rfl⟩
  · exact sim_pure ⟨rfl, _, hs⟩
  · rw [List.concat_eq_append] at hs ⊢
    simp only [List.getLast?_append, List.getLast?_singleton, Option.some_or]
    refine sim_passUnique fun _ => sim_loadByte rfl <| sim_get <| sim_once subU8_no fun z hz => ?_
    refine sim_bind (sim_setSize (Q := fun _ _ g' => Valid N g') ?_) fun _ _ _ h => sim_pure ⟨rfl, h⟩
    refine valid_mk strOf_size (hs.shrink ?_)
    have hlen := hs.len
    simp only [byteLen_append, byteLen_cons, byteLen_nil] at hlen
    have h4 := utf8Size_le_four c
    have hl : (intoLossy (Str.lenUtf8 c)).toNat = c.utf8Size := intoLossy_toNat (by unfold Str.lenUtf8; omega)
    have hsz : (g N).toNat = byteLen cs + c.utf8Size := hlen
    unfold subU8 at hz
    rw [if_pos (by rw [hl]; show _ ≤ (g N).toNat; omega)] at hz
    cases hz
    show (g N - _).toNat = _
    rw [UInt8.toNat_sub_of_le _ _ (by rw [UInt8.le_iff_toNat_le]; omega)]
    omega


variable [ValidCapacity N]

theorem sim_chars_trim (hg : Valid N g) :
    Sim K b g (Chars.trim self : M (Mem R N) ε _) (Borrow.Chars.trim self) (fun a c _ => a = c) E := by
  have hg' := hg
  obtain ⟨cs, hs⟩ := hg
  have hl : (g N).toNat = byteLen cs := by rw [valid_length hs, length_utf8]
  refine sim_len_then <| sim_lookFor (sc := fun k => Scan.trimStart (g N).toNat k k 0) hs
    (Scan.trimStart_text (cs := cs) (by omega) (Nat.zero_le _) (Nat.le_refl _) (valid_bytes hs)) <|
    sim_text_right hs <| sim_len_then ?_
  rw [charIndices_utf8]
  refine sim_lookFor (sc := fun k => Scan.trimEnd _ k (g N).toNat k) hs
    (Scan.trimEnd_text (cs := cs) (by omega) (Nat.le_refl _) (valid_bytes hs)) ?_
  generalize ArrayString.trimEnd _ _ _ = o
  cases o with
  | none => exact sim_setSize rfl
  | some stop =>
    exact sim_bind (sim_removed hg') fun _ _ _ h => sim_bind (sim_removed h) fun _ _ _ _ => sim_pure rfl

omit [ValidCapacity N] in
theorem sim_first {stop : Nat} {f : Option (Option Char) → M (Mem R N) ε α} {f' : M (World R N) ε β}
    (h : Holds (strOf N g) cs)
    (hf : Sim K b g (f ((Str.get? (utf8 cs) idx stop).map fun t => (Str.chars t).head?)) f' Q E) :
    Sim K b g (Chars.first self idx stop >>= f) (Borrow.Chars.first self idx stop >>= fun _ => f') Q E := by
  have hl := valid_le h
  have hlen := valid_length h
  unfold Chars.first Borrow.Chars.first
  rw [bind_assoc, bind_assoc]
  refine sim_bind (sim_asStr h) fun ⟨a, n⟩ _ g ⟨h1, h2, h3⟩ => ?_
  subst h1 h3
  dsimp only at h2 ⊢
  subst h2
  have hx : sliceOf g 0 (utf8 cs).length = utf8 cs := by rw [← hlen]; exact valid_bytes h
  rw [bind_assoc, bind_assoc]
  refine sim_get ?_
  have ht : (strOf N g).array.take (strOf N g).len = utf8 cs := h.2.2
  rw [ht, bind_assoc]
  refine sim_bind (Q := fun ok _ g' => ok = decide (idx ≤ stop ∧ Str.isCharBoundary (utf8 cs) idx = true) ∧ g' = g)
    ?_ fun ok _ g ⟨h1, h2⟩ => ?_
  · by_cases h1 : idx ≤ stop
    · rw [if_pos h1, if_pos h1]
      have := sim_boundaryAt (R := R) (N := N) (K := K) (b := b) (ε := ε) (E := E) (t := a) (idx := idx) hx hlen
      simpa [h1] using this
    · rw [if_neg h1, if_neg h1]
      exact sim_pure ⟨by simp [h1], rfl⟩
  subst h2
  rw [bind_assoc, bind_assoc]
  refine sim_bind (Q := fun ok _ g' => ok = decide (idx ≤ stop ∧ Str.isCharBoundary (utf8 cs) idx = true ∧
      Str.isCharBoundary (utf8 cs) stop = true) ∧ g' = g) ?_ fun ok _ g ⟨h3, h2⟩ => ?_
  · by_cases h2 : idx ≤ stop ∧ Str.isCharBoundary (utf8 cs) idx = true
    · rw [if_pos h2, if_pos (by simp [h1, h2])]
      have := sim_boundaryAt (R := R) (N := N) (K := K) (b := b) (ε := ε) (E := E) (t := a) (idx := stop) hx hlen
      simpa [h2] using this
    · rw [if_neg h2, if_neg (by rw [h1]; simpa using h2)]
      exact sim_pure ⟨by simp only [← and_assoc]; simp [h2], rfl⟩
  subst h2
  unfold Str.get? at hf ⊢
  by_cases hc : idx ≤ stop ∧ Str.isCharBoundary (utf8 cs) idx = true ∧ Str.isCharBoundary (utf8 cs) stop = true
  · rw [if_pos hc] at hf ⊢
    rw [if_pos (by simp [h3, hc])]
    obtain ⟨c1, c2, c3⟩ := hc
    rw [isCharBoundary_utf8] at c2 c3
    obtain ⟨a1, mid, a3, rfl, e1, e2⟩ := cut_three c2 c3 c1
    have hm : sliceOf g idx (stop - idx) = utf8 mid := by
      have h1 := Scan.slice_split (g := g) (lo := 0) (hi := (g N).toNat) (k := idx) (by rw [hlen]; simp; omega)
      have h2 := Scan.slice_split (g := g) (lo := idx) (hi := (g N).toNat) (k := stop - idx) (by rw [hlen]; simp; omega)
      rw [Nat.sub_zero, valid_bytes h, Nat.zero_add, h2] at h1
      simp only [utf8_append, List.append_assoc] at h1
      have h3 := (List.append_inj h1 (by rw [sliceOf_length, length_utf8, e1])).2
      exact ((List.append_inj h3 (by rw [sliceOf_length, length_utf8]; omega)).1).symm
    have hsub : ((utf8 (a1 ++ mid ++ a3)).drop idx).take (stop - idx) = utf8 mid := by
      rw [utf8_append, utf8_append, List.append_assoc, List.drop_left' (by rw [length_utf8, e1]),
        List.take_left' (by rw [length_utf8]; omega)]
    have he : ∃ i, (Scan.next idx stop).eval g idx stop = .ok (mid.head?, i) := by
      cases mid with
      | nil => exact ⟨_, Scan.next_none (by simp at e2; omega)⟩
      | cons c mid => exact ⟨_, (Scan.next_text (Nat.le_refl _) (Nat.le_refl _) hm).1⟩
    obtain ⟨i, he⟩ := he
    have hle : stop ≤ N := by
      have : stop ≤ (g N).toNat := by rw [hlen]; simp; omega
      omega
    rw [hsub] at hf
    simp only [Option.map, chars_utf8] at hf
    dsimp only
    rw [bind_assoc, bind_assoc]
    refine sim_then sim_through fun a => ?_
    rw [bind_assoc, bind_assoc]
    refine sim_then sim_through fun a => ?_
    rw [bind_assoc]
    refine sim_bind (sim_scan (fun l _ h => bytes_same (by omega)) he) fun _ _ _ ⟨h1, h2⟩ => ?_
    subst h1 h2
    exact hf
  · rw [if_neg hc] at hf ⊢
    rw [if_neg (by rw [h3]; simpa using hc)]
    exact sim_bind (sim_pure (Q := fun a _ g' => a = none ∧ g' = g) ⟨rfl, rfl⟩) fun _ _ _ ⟨h1, h2⟩ => by
      subst h1 h2; exact hf

theorem sim_chars_remove (hg : Valid N g) :
    Sim K b g (Chars.remove self idx : M (Mem R N) _ _) (Borrow.Chars.remove self idx) (Good N) (Valid N) := by
  have hg' := hg
  obtain ⟨cs, hs⟩ := hg
  refine sim_len_then <| sim_try_then hg' fun _ _ => sim_check_then hs hg' fun _ => sim_len_then <|
    sim_once (fun e => by split; nofun; exact addUsize_no e) fun stop _ => ?_
  refine sim_bind (sim_removeScan hs) fun stop _ _ ⟨h1, h2⟩ => ?_
  subst h1 h2
  refine sim_first hs <| sim_text_right hs ?_
  cases Str.get? (utf8 cs) idx stop with
  | none => exact sim_lift (fun _ h => by cases h) fun _ _ => hg'
  | some sub =>
    dsimp only [Option.map]
    cases (Str.chars sub).head? with
    | none => exact sim_lift (fun _ h => by cases h) fun _ _ => hg'
    | some ch =>
      exact sim_once addUsize_no fun _ _ => sim_bind (sim_callMut fun _ => sim_replaceRangeOn part_nil hg')
        fun _ _ _ h => sim_pure ⟨rfl, h⟩

theorem sim_chars_drainEnds {d : Tag} {es : List End} (hg : Valid N g) :
    Sim K b g (Chars.drainEnds d es : M (Mem R N) ε _) (Borrow.Chars.drainEnds d es) (Good N) E := by
  induction es generalizing g with
  | nil => exact sim_pure ⟨rfl, hg⟩
  | cons x es ih =>
    cases x with
    | front =>
      refine sim_bind (sim_attempt (sim_callMut fun _ => sim_callMut fun _ => sim_chars_remove hg)) fun _ _ _ h => ?_
      rcases h with ⟨_, _, rfl, rfl, rfl, h⟩ | ⟨_, rfl, rfl, h⟩ <;>
        exact sim_bind (ih h) fun _ _ _ ⟨h1, h2⟩ => by subst h1; exact sim_pure ⟨rfl, h2⟩
    | back =>
      refine sim_bind (sim_callMut fun _ => sim_callMut fun _ => sim_chars_pop hg) fun _ _ _ ⟨h1, h⟩ => ?_
      subst h1
      exact sim_bind (ih h) fun _ _ _ ⟨h1, h2⟩ => by subst h1; exact sim_pure ⟨rfl, h2⟩

theorem sim_chars_retainLoop {out : Tag} {f : ArrayString.Pred φ} {q : φ} {fuel : Nat} {pre rest : List Char}
    (hb : b = utf8 (pre ++ rest)) (hf : rest.length ≤ fuel) (hg : Valid N g) :
    Sim K b g (Chars.retainLoop t out f (N + 1 + b.length) fuel q (N + 1 + byteLen pre) : M (Mem R N) ε φ)
      (Borrow.Chars.retainLoop t out f (fun l => b[l - (N + 1)]?.getD 0) (N + 1 + b.length) q (N + 1 + byteLen pre) rest)
      (Good N) E := by
  induction rest generalizing fuel pre q g with
  | nil =>
    have : ¬ N + 1 + byteLen pre < N + 1 + b.length := by rw [hb]; simp
    cases fuel with
    | zero =>
      unfold Chars.retainLoop Borrow.Chars.retainLoop
      rw [if_neg this]
      exact sim_pure ⟨rfl, hg⟩
    | succ fuel =>
      have e : (scan t (Scan.next (N + 1 + byteLen pre) (N + 1 + b.length)) : M (Mem R N) ε _) =
          pure (none, N + 1 + byteLen pre) := by
        unfold Scan.next Scan.nextCodePoint
        rw [if_neg this]
        rfl
      unfold Chars.retainLoop Borrow.Chars.retainLoop
      rw [e]
      exact sim_pure ⟨rfl, hg⟩
  | cons c rest ih =>
    cases fuel with
    | zero => simp at hf
    | succ fuel =>
      have hb' : b = utf8 ((pre ++ [c]) ++ rest) := by rw [hb]; simp
      have hp : N + 1 + byteLen pre + c.utf8Size = N + 1 + byteLen (pre ++ [c]) := by simp; omega
      have hf' : rest.length ≤ fuel := by simpa using hf
      refine sim_with_text fun ht => ?_
      have hsl : sliceOf g (N + 1 + byteLen pre) (N + 1 + b.length - (N + 1 + byteLen pre)) = utf8 (c :: rest) := by
        refine List.ext_getElem? fun i => ?_
        rw [sliceOf_getElem?]
        have hl : b.length = byteLen pre + byteLen (c :: rest) := by rw [hb]; simp
        split
        · have := ht (byteLen pre + i) (by omega)
          rw [hb, utf8_append, List.getElem?_append_right (by simp)] at this
          rw [Nat.add_assoc, ← this]
          simp
        · rw [List.getElem?_eq_none (by rw [length_utf8]; omega)]
      have he := (Scan.next_text (Nat.le_refl _) (Nat.le_refl _) hsl).1
      unfold Chars.retainLoop Borrow.Chars.retainLoop
      refine sim_bind (sim_scan (fun l h1 h2 => ?_) he) fun ⟨o, l⟩ _ g' ⟨h1, h2⟩ => ?_
      · have := ht (l - (N + 1)) (by omega)
        rw [this, show N + 1 + (l - (N + 1)) = l by omega]
        rfl
      cases h1
      subst h2
      dsimp only
      unfold Str.lenUtf8
      rw [hp]
      rcases f q c with _ | ⟨_ | _, q⟩
      · exact sim_lift (fun _ h => by cases h) fun _ h => by cases h
      · exact ih hb' hf' hg
      · refine sim_bind (sim_attempt (sim_callMut fun _ => sim_tryPush hg)) fun _ _ _ h => ?_
        rcases h with ⟨_, _, rfl, rfl, _, h⟩ | ⟨_, rfl, rfl, h⟩
        · exact ih hb' hf' h
        · exact sim_pure ⟨rfl, h⟩

theorem sim_chars_retained {f : ArrayString.Pred φ} {q : φ} (hg : Valid N g) :
    Sim K b g (Chars.retained self f q : M (Mem R N) ε _) (Borrow.Chars.retained self f q)
      (AfterLocal (Good N) (· = g)) (· = g) := by
  obtain ⟨cs, hs⟩ := hg
  unfold Chars.retained Chars.chars
  rw [bind_assoc]
  refine sim_bind (sim_asStr hs) fun ⟨a, k⟩ ⟨c, _⟩ _ ⟨e1, e2, e3⟩ => ?_
  dsimp only at e2
  cases e1
  subst e2 e3
  dsimp only
  rw [bind_assoc]
  refine sim_text_right hs <| sim_then sim_through fun a => ?_
  show Sim K b _ (withNew 0 _ fun out => Chars.retainLoop a out f _ _ q (N + 1)) _ _ _
  refine sim_withLocal (E' := fun _ => True) holds_new.1 fun u => ?_
  rw [chars_utf8, Nat.sub_zero, valid_bytes hs, valid_length hs]
  refine sim_chars_retainLoop (pre := []) rfl ?_ (valid_inner holds_new)
  rw [length_utf8]
  exact length_le_byteLen cs

theorem sim_chars_retain {f : ArrayString.Pred φ} {q : φ} (hg : Valid N g) :
    Sim K b g (Chars.retain self f q : M (Mem R N) ε _) (Borrow.Chars.retain self f q) (fun a c _ => a = c)
      (fun _ => True) := by
  refine sim_bind ((sim_chars_retained hg).mono (fun _ _ _ h => h) fun _ _ => trivial)
    fun ⟨q, s⟩ ⟨q', s'⟩ _ ⟨h1, h2, g2, h3, h4⟩ => ?_
  dsimp only at h1 h3 h4 ⊢
  obtain ⟨h4, cs, h5⟩ := h4
  subst h1 h4
  exact sim_storeString (h3 ▸ h5.1) fun _ _ => sim_pure rfl

theorem sim_chars_exec {op : Op} (hg : Valid N g) (hK : ∀ t ∈ Borrow.texts op, byteLen t ≤ K) :
    SimCall (oneText op) K g (Chars.exec caller arg op : M (Mem R N) _ _) (Borrow.Chars.exec caller arg op) := by
  have hg' := hg
  obtain ⟨cs, hs⟩ := hg
  cases op with
  | pop => exact sim_noText <| sim_method fun _ => (sim_chars_pop hg').mono (fun _ _ _ h => h.1) fun _ h => h
  | trim => exact sim_noText <| sim_method fun _ => sim_chars_trim hg'
  | remove i => exact sim_noText <| sim_method fun _ => (sim_chars_remove hg').mono (fun _ _ _ h => h.1) fun _ _ => trivial
  | retain f => exact sim_noText <| sim_method fun _ => sim_chars_retain hg'
  | drain r es =>
    refine sim_noText <| sim_call <| sim_bind ((sim_callMut fun _ => sim_drain hg').mono (fun _ _ _ h => h) fun _ _ => trivial)
      fun d _ _ ⟨h1, h2, cs, h3⟩ => ?_
    subst h1
    refine sim_bind ((sim_withLocal (E' := fun _ => True)
      (Q' := fun a c g2 => ∃ ds, Holds (strOf N g2) ds ∧ a = (c, utf8 ds)) h3.1 fun t => ?_).mono (fun _ _ _ h => h) fun _ _ => trivial)
      fun ⟨x, s⟩ ⟨y, s'⟩ _ ⟨e1, _, g2, e3, ds, e4, e5⟩ => ?_
    · refine sim_bind (sim_chars_drainEnds (valid_inner h3)) fun _ _ _ ⟨e1, ds, e2⟩ => ?_
      subst e1
      exact sim_look_then e2 <| sim_pure ⟨ds, e2, rfl⟩
    · dsimp only at e1 e3 e5 ⊢
      subst e1 e5
      rw [e3] at e4
      exact sim_skip_right e4.asStr <| sim_pure rfl
  | _ => exact sim_exec (caller := caller) (arg := arg) hg' hK

end Verif.Machine
