import Verif.Proofs.MachineReplace

/-! Loads and stores: local variables, and the methods. -/

namespace Verif.Machine
open Spec
open Borrow (Rules Tag World Settled settled_ok settled_err settled_panic emptyLit)

variable {R : Rules} {N : Nat} {ε ε' α β φ : Type} {K : Nat} {b : Bytes} {g : Nat → UInt8} {E : (Nat → UInt8) → Prop}
  {m : M (Mem R N) ε α} {n : M (World R N) ε β} {Q : α → β → (Nat → UInt8) → Prop}
  {t u self arg : Tag} {lo hi k idx : Nat} {cs : List Char}

/-- The same result, and a text in the string. -/
def Good (N : Nat) (a c : α) (g : Nat → UInt8) : Prop := a = c ∧ Valid N g

theorem strOf_congr {g' : Nat → UInt8} (h : ∀ l, l ≤ N → g l = g' l) : strOf N g = strOf N g' := by
  unfold strOf
  rw [h N (Nat.le_refl _)]
  congr 1
  refine List.map_congr_left fun l hl => h l ?_
  have := List.mem_range'_1.1 hl
  omega

theorem valid_congr {g' : Nat → UInt8} (h : strOf N g = strOf N g') (hv : Valid N g) : Valid N g' := by
  unfold Valid at *
  rwa [← h]

theorem valid_mk {s : ArrayString N} (h : strOf N g = s) (hs : Holds s cs) : Valid N g := ⟨cs, by rwa [h]⟩

theorem strOf_bytesOf {s : ArrayString N} (h : s.array.length = N) : strOf N (bytesOf s) = s := by
  obtain ⟨a, z⟩ := s
  unfold strOf
  have h1 : bytesOf (⟨a, z⟩ : ArrayString N) N = z := by simp [bytesOf]
  rw [h1]
  congr 1
  refine List.ext_getElem? fun i => ?_
  change (sliceOf _ 0 N)[i]? = _
  dsimp only at h
  rw [sliceOf_getElem?]
  split
  · rw [List.getElem?_eq_getElem (by omega)]
    simp only [bytesOf, Nat.zero_add]
    rw [if_pos (by assumption), List.getElem?_eq_getElem (by omega)]
    rfl
  · rw [List.getElem?_eq_none (by omega)]

/-- More may be known about the text than has to be kept. -/
theorem sim_given {x : Bytes} (hx : Text N x g) (h : Sim K x g m n Q E) : Sim K [] g m n Q E := by
  intro s hs _ r w' e hr
  obtain ⟨r', s', h1, h2, h3, h4⟩ := h s hs hx r w' e hr
  exact ⟨r', s', h1, h2, ⟨.nil, h3.2⟩, h4⟩

/-! ## Local variables -/

theorem sim_withBuf {init : Bytes} {size : Nat} {body : Tag → M (Mem R N) ε α} {body' : Tag → M (World R N) ε β}
    {Q' : α → β → (Nat → UInt8) → Prop} {E' : (Nat → UInt8) → Prop} {K' : Nat} (hs : size = init.length)
    (h : ∀ t, Sim K' [] (fun l => if l ≤ N then g l else (init[l - (N + 1)]?).getD 0) (body t) (body' t) Q' E')
    (hq : ∀ a c g1 g2, strOf N g1 = strOf N g2 → Q' a c g1 → Q a c g2)
    (he : ∀ g1 g2, strOf N g1 = strOf N g2 → E' g1 → E g2) :
    Sim K b g (withBuf init body) (Borrow.withBuf size body') Q E := by
  subst hs
  intro s hs ht r w' e hr
  let v : Mem R N := {
    bytes := fun l => if l ≤ N then g l else (init[l - (N + 1)]?).getD 0
    mem := fun l => if l ≤ N then s.mem l else if l < N + 1 + init.length then R.alloc s.next else R.empty
    next := s.next + 1 }
  have hv : abs v = {
      str := (abs s).str
      mem := fun l => if l ≤ N then (abs s).mem l else if l < N + 1 + init.length then R.alloc (abs s).next else R.empty
      next := (abs s).next + 1 } := by
    have : v.str = s.str := by
      show strOf N _ = strOf N s.bytes
      refine strOf_congr fun l hl => ?_
      show (if l ≤ N then g l else _) = _
      rw [if_pos hl, hs]
    show (⟨v.str, _, _⟩ : World R N) = ⟨s.str, _, _⟩
    rw [this]
    rfl
  obtain ⟨y, hy⟩ : ∃ y, body' s.next (abs v) = y := ⟨_, rfl⟩
  obtain ⟨r1, w1⟩ := y
  have e' : Borrow.withBuf init.length body' (abs s) = (r1, ⟨w1.str,
      fun l => if l ≤ N then w1.mem l else s.mem l, max s.next w1.next⟩) := by
    unfold Borrow.withBuf
    dsimp only
    rw [← hv]
    rw [show (abs s).next = s.next from rfl, hy]
    rfl
  rw [e'] at e
  cases e
  obtain ⟨r', v', h1, h2, _, h4⟩ := h s.next v rfl .nil r w1 hy hr
  have hstr : ∀ g1 : Nat → UInt8, strOf N g1 = strOf N (fun l => if l ≤ N then g1 l else s.bytes l) := fun g1 =>
    strOf_congr fun l hl => by rw [if_pos hl]
  refine ⟨r', { bytes := fun l => if l ≤ N then v'.bytes l else s.bytes l
                mem := fun l => if l ≤ N then v'.mem l else s.mem l
                next := max s.next v'.next }, ?_, ?_, ?_, ?_⟩
  · unfold withBuf
    dsimp only
    have : (⟨fun l => if l ≤ N then s.bytes l else (init[l - (N + 1)]?).getD 0,
      fun l => if l ≤ N then s.mem l else if l < N + 1 + init.length then R.alloc s.next else R.empty,
      s.next + 1⟩ : Mem R N) = v := by rw [hs]
    rw [this, h1]
  · subst h2
    show (⟨strOf N _, _, _⟩ : World R N) = _
    rw [← hstr]
    rfl
  · refine ⟨fun i hi => ?_, fun l hl => ?_⟩
    · rw [ht i hi, ← hs]
      show some _ = some (if N + 1 + i ≤ N then _ else _)
      rw [if_neg (by omega)]
    · show (if l ≤ N then _ else _) = _
      rw [if_neg (by omega), hs]
  · cases r <;> cases r' <;> try exact h4.elim
    · exact hq _ _ _ _ (hstr _) h4
    · exact ⟨h4.1, he _ _ (hstr _) h4.2⟩
    · trivial

/-- The bytes in which the body of `withLocal` runs. -/
def innerBytes (init : ArrayString N) (lo : Nat) (g : Nat → UInt8) : Nat → UInt8 :=
  fun l => if l ≤ N then bytesOf init l else g (lo + (l - (N + 1)))

theorem strOf_inner {init : ArrayString N} (h : init.array.length = N) : strOf N (innerBytes init lo g) = init := by
  rw [← strOf_bytesOf h]
  refine strOf_congr fun l hl => ?_
  unfold innerBytes
  rw [if_pos hl, strOf_bytesOf h]

theorem text_inner {init : ArrayString N} : Text N (sliceOf g lo k) (innerBytes init lo g) := by
  intro i hi
  rw [sliceOf_length] at hi
  rw [sliceOf_getElem?, if_pos hi]
  unfold innerBytes
  rw [if_neg (by omega), show N + 1 + i - (N + 1) = i by omega]

theorem abs_inner {init : ArrayString N} (h : init.array.length = N) {s : Mem R N} :
    abs (⟨innerBytes init lo s.bytes, fun l => if l ≤ N then R.alloc s.next
      else if l < N + 1 + (hi - lo) then s.mem (lo + (l - (N + 1))) else R.empty, s.next + 1⟩ : Mem R N) =
    Borrow.inner init lo hi (abs s) := by
  show (⟨strOf N _, _, _⟩ : World R N) = ⟨init, _, _⟩
  rw [strOf_inner h]
  rfl

/-- What is known after `withLocal`: the last value of the variable, and what held of its bytes. -/
def AfterLocal (Q' : α → β → (Nat → UInt8) → Prop) (P : (Nat → UInt8) → Prop)
    (x : α × ArrayString N) (y : β × ArrayString N) (g' : Nat → UInt8) : Prop :=
  x.2 = y.2 ∧ P g' ∧ ∃ g2, strOf N g2 = x.2 ∧ Q' x.1 y.1 g2

theorem sim_withLocal_aux {x : Bytes} {init : ArrayString N} {body : Tag → M (Mem R N) ε α} {body' : Tag → M (World R N) ε β}
    {Q' : α → β → (Nat → UInt8) → Prop} {E' : (Nat → UInt8) → Prop} {P : (Nat → UInt8) → Prop}
    {K' : Nat} (hx : Text N x (innerBytes init lo g))
    (hi' : init.array.length = N) (h : ∀ t, Sim K' x (innerBytes init lo g) (body t) (body' t) Q' E')
    (hP : Text N b g → ∀ g2, Text N x g2 →
      P (fun l => if lo ≤ l ∧ l < hi then g2 (N + 1 + (l - lo)) else g l) ∧
      Keeps N K b g (fun l => if lo ≤ l ∧ l < hi then g2 (N + 1 + (l - lo)) else g l) ∧
      strOf N (fun l => if lo ≤ l ∧ l < hi then g2 (N + 1 + (l - lo)) else g l) = strOf N g) :
    Sim K b g (withLocal init lo hi body) (Borrow.withLocal init lo hi body') (AfterLocal Q' P) P := by
  intro s hs ht r w' e hr
  subst hs
  rw [Borrow.withLocal_run, ← abs_inner hi'] at e
  obtain ⟨y, hy⟩ : ∃ y, body' s.next (abs ⟨innerBytes init lo s.bytes, fun l => if l ≤ N then R.alloc s.next
      else if l < N + 1 + (hi - lo) then s.mem (lo + (l - (N + 1))) else R.empty, s.next + 1⟩) = y := ⟨_, rfl⟩
  obtain ⟨r1, w1⟩ := y
  change ((body' s.next (abs _)).1 >>= _, Borrow.outer lo hi (abs s) (body' s.next (abs _)).2) = _ at e
  rw [show (abs s).next = s.next from rfl, hy] at e
  cases e
  obtain ⟨r', v', h1, h2, h3, h4⟩ := h s.next _ rfl hx r1 w1 hy (Borrow.settled_pair hr)
  obtain ⟨p1, p2, p3⟩ := hP ht v'.bytes h3.1
  refine ⟨r' >>= fun a => .ok (a, v'.str), { bytes := fun l => if lo ≤ l ∧ l < hi then v'.bytes (N + 1 + (l - lo)) else s.bytes l
                                             mem := fun l => if lo ≤ l ∧ l < hi then v'.mem (N + 1 + (l - lo)) else s.mem l
                                             next := max s.next v'.next }, ?_, ?_, p2, ?_⟩
  · unfold innerBytes at h1
    unfold withLocal
    dsimp only
    rw [h1]
  · subst h2
    show (⟨strOf N _, _, _⟩ : World R N) = Borrow.outer lo hi (abs s) (abs v')
    rw [p3]
    rfl
  · subst h2
    cases r1 <;> cases r' <;> try exact h4.elim
    · exact ⟨rfl, p1, _, rfl, h4⟩
    · exact ⟨h4.1, p1⟩
    · trivial

/-- The text argument is the part `lo .. hi` of memory, which stays as it is. -/
theorem sim_withLocal {init : ArrayString N} {body : Tag → M (Mem R N) ε α} {body' : Tag → M (World R N) ε β}
    {Q' : α → β → (Nat → UInt8) → Prop} {E' : (Nat → UInt8) → Prop} (hi' : init.array.length = N)
    (h : ∀ t, Sim 0 (sliceOf g lo (hi - lo)) (innerBytes init lo g) (body t) (body' t) Q' E') :
    Sim K b g (withLocal init lo hi body) (Borrow.withLocal init lo hi body') (AfterLocal Q' (· = g)) (· = g) := by
  refine sim_withLocal_aux text_inner hi' h fun ht g2 hg => ?_
  have : (fun l => if lo ≤ l ∧ l < hi then g2 (N + 1 + (l - lo)) else g l) = g := by
    funext l
    split
    · have := hg (l - lo) (by rw [sliceOf_length]; omega)
      rw [sliceOf_getElem?, if_pos (by omega), show lo + (l - lo) = l by omega] at this
      exact (Option.some.inj this).symm
    · rfl
  rw [this]
  exact ⟨rfl, .refl ht, rfl⟩

/-- The text argument is the old one, and may change. -/
theorem sim_withLocal_text {init : ArrayString N} {body : Tag → M (Mem R N) ε α} {body' : Tag → M (World R N) ε β}
    {Q' : α → β → (Nat → UInt8) → Prop} {E' : (Nat → UInt8) → Prop} {K' : Nat} (hi' : init.array.length = N)
    (hhi : hi ≤ N + 1 + K) (h : ∀ t, Sim K' [] (innerBytes init (N + 1) g) (body t) (body' t) Q' E') :
    Sim K [] g (withLocal init (N + 1) hi body) (Borrow.withLocal init (N + 1) hi body')
      (AfterLocal Q' (fun g' => strOf N g' = strOf N g)) (fun g' => strOf N g' = strOf N g) := by
  refine sim_withLocal_aux .nil hi' h fun _ g2 _ => ?_
  have : strOf N (fun l => if N + 1 ≤ l ∧ l < hi then g2 (N + 1 + (l - (N + 1))) else g l) = strOf N g :=
    strOf_congr fun l hl => by rw [if_neg (by omega)]
  exact ⟨this, ⟨.nil, fun l hl => if_neg (by omega)⟩, this⟩

/-! ## Texts -/

theorem text_placed {x : Bytes} : Text N x (stored g (N + 1) x) := by
  intro i hi
  rw [stored_in hi, List.getElem?_eq_getElem hi]

theorem strOf_placed {x : Bytes} : strOf N (stored g (N + 1) x) = strOf N g :=
  strOf_congr fun l hl => stored_out (by omega)

/-- The caller puts a text at the place of the argument. -/
theorem sim_place {x : Bytes} {f : Unit → M (Mem R N) ε α} (hK : x.length ≤ K)
    (h : Text N x (stored g (N + 1) x) → Sim K [] (stored g (N + 1) x) (f ()) n Q E) :
    Sim K [] g (place x >>= f) n Q E := by
  intro s hs _ r w' e hr
  subst hs
  have e' : n (abs { s with bytes := stored s.bytes (N + 1) x }) = (r, w') := by
    rw [← e]
    show n ⟨strOf N _, s.mem, s.next⟩ = n ⟨strOf N _, s.mem, s.next⟩
    rw [strOf_placed]
  obtain ⟨r', s', h1, h2, h3, h4⟩ := h text_placed { s with bytes := stored s.bytes (N + 1) x } rfl .nil r w' e' hr
  exact ⟨r', s', h1, h2, ⟨.nil, fun l hl => (h3.2 l hl).trans (stored_out (by omega))⟩, h4⟩

theorem sim_storeText {x : Bytes} {f : Unit → M (Mem R N) ε α} {f' : Unit → M (World R N) ε β} (hK : x.length ≤ K)
    (h : Text N x (stored g (N + 1) x) → Sim K [] (stored g (N + 1) x) (f ()) (f' ()) Q E) :
    Sim K [] g (store t (N + 1) x >>= f) (Borrow.writeAt t (N + 1) (N + 1 + x.length) >>= f') Q E := by
  refine sim_bind (Q := fun _ _ g' => g' = stored g (N + 1) x) ?_ fun _ _ _ h1 => by subst h1; exact h text_placed
  intro s hs _ r w' e hr
  obtain ⟨rfl, s1, h1, h2, h3⟩ := touch_run e hr
  subst hs
  refine ⟨.ok (), { s1 with bytes := stored s1.bytes (N + 1) x }, ?_, ?_, ⟨.nil, fun l hl => ?_⟩, ?_⟩
  · show M.bind _ _ s = _
    unfold M.bind
    rw [h1]
    rfl
  · subst h2
    show (⟨strOf N _, s1.mem, s1.next⟩ : World R N) = ⟨strOf N _, s1.mem, s1.next⟩
    rw [strOf_placed]
  · show stored s1.bytes (N + 1) x l = _
    rw [h3, stored_out (by omega)]
  · show stored s1.bytes (N + 1) x = _
    rw [h3]

/-! ## The methods -/

variable [ValidCapacity N]

theorem sim_tryPushStr {x : Bytes} (hx : Part b x) (hg : Valid N g) :
    Sim K b g (tryPushStr self arg x.length : M (Mem R N) _ Unit) (Borrow.tryPushStr self arg x) (Good N) (Valid N) :=
  sim_passShared fun _ => sim_len_then <| sim_mapErr <|
    (sim_callMut fun _ => sim_replaceRangeOn hx hg).mono (fun _ _ _ h => ⟨rfl, h⟩) fun _ h => h

/-- A reference to a part of the text. -/
def RefPart (b : Bytes) (g : Nat → UInt8) (x : Tag × Nat) (y : Tag × Bytes) (g' : Nat → UInt8) : Prop :=
  x.1 = y.1 ∧ x.2 = y.2.length ∧ Part b y.2 ∧ g' = g

omit [ValidCapacity N] in
theorem sim_promised {lo k i j : Nat} {f : Unit → M (Mem R N) ε α} {n : M (World R N) ε β}
    {Q : α → β → (Nat → UInt8) → Prop}
    (hp : Text N b g → (Str.getUnchecked (sliceOf g lo k) i j : Res ε Bytes) ≠ .ub) (h : Sim K b g (f ()) n Q E) :
    Sim K b g (promised lo k i j >>= f) n Q E := by
  intro s hs ht r w' e hr
  have hx := hp ht
  obtain ⟨r', s', h1, h2⟩ := h s hs ht r w' e hr
  refine ⟨r', s', ?_, h2⟩
  subst hs
  have hy : (promised lo k i j : M (Mem R N) ε Unit) s = (.ok (), s) := by
    unfold Str.getUnchecked at hx
    unfold promised Str.getUnchecked
    split at hx
    · rename_i hc
      rw [show s.slice lo k = sliceOf s.bytes lo k from rfl, if_pos hc]
      rfl
    · exact absurd rfl hx
  change M.bind _ _ s = _
  unfold M.bind
  rw [hy]
  exact h1

omit [ValidCapacity N] in
theorem sim_cut {x : Bytes} {size : Nat} (hx : Part b x) :
    Sim K b g (cut t x.length size : M (Mem R N) ε _) (Borrow.cut t x size) (RefPart b g) E := by
  unfold cut Borrow.cut
  refine sim_known (fun y hy => ?_) (by unfold Str.getUnchecked; split; exact .inr ⟨_, rfl⟩; exact .inl rfl)
  unfold Str.getUnchecked at hy
  split at hy
  · rename_i hc
    cases hy
    have hc' := hc
    obtain ⟨_, h2, _, h4⟩ := hc
    refine sim_promised (fun ht => ?_) <| sim_then sim_through fun _ => sim_pure ⟨rfl, ?_, ?_, rfl⟩
    · rw [slice_text (ht.of_prefix hx.1), Str.getUnchecked, if_pos hc']
      nofun
    · simp
      omega
    · obtain ⟨h5, w, rfl⟩ := hx
      obtain ⟨pre, post, rfl, rfl⟩ := (isCharBoundary_utf8 _ _).1 h4
      refine ⟨?_, pre, by simp [List.take_left']⟩
      refine List.IsPrefix.trans ?_ h5
      simp only [List.drop_zero]
      exact List.take_prefix _ _
  · cases hy

omit [ValidCapacity N] in
theorem sim_boundary_text {x : Bytes} (hx : Part b x) :
    Sim K b g (boundaryAt t (N + 1) x.length idx : M (Mem R N) ε Bool) (Borrow.readBoundary t (N + 1) x.length idx)
      (fun a _ g' => a = Str.isCharBoundary x idx ∧ g' = g) E :=
  sim_with_text fun ht => sim_boundaryAt (slice_text (ht.of_prefix hx.1)) rfl

omit [ValidCapacity N] in
theorem sim_choose {x : Bytes} {f f' : M (Mem R N) ε α} {h h' : M (World R N) ε β} (hx : Part b x)
    (h1 : Sim K b g f h Q E) (h2 : Sim K b g f' h' Q E) :
    Sim K b g (boundaryAt t (N + 1) x.length idx >>= fun ok => if ok = true then f else f')
      (Borrow.readBoundary t (N + 1) x.length idx >>= fun _ => if Str.isCharBoundary x idx = true then h else h') Q E :=
  sim_bind (sim_boundary_text hx) fun _ _ _ ⟨e1, e2⟩ => by
    subst e1 e2
    split
    · exact h1
    · exact h2

omit [ValidCapacity N] in
theorem sim_truncateStr {x : Bytes} {size : Nat} (hx : Part b x) :
    Sim K b g (truncateStr t x.length size : M (Mem R N) ε _) (Borrow.truncateStr t x size) (RefPart b g) E := by
  refine sim_passShared fun _ => ?_
  by_cases h : x.length ≤ size
  · rw [if_pos h, if_pos h]
    exact sim_then sim_retagShared fun _ => sim_pure ⟨rfl, rfl, hx, rfl⟩
  · rw [if_neg h, if_neg h]
    exact sim_choose hx (sim_cut hx) <| sim_once subUsize_no fun _ _ => sim_choose hx (sim_cut hx) <|
      sim_once subUsize_no fun _ _ => sim_choose hx (sim_cut hx) <| sim_once subUsize_no fun _ _ => sim_cut hx

omit [ValidCapacity N] in
theorem sim_truncated {x : Bytes} (hx : Part b x) :
    Sim K b g (truncated self t x.length : M (Mem R N) ε _) (Borrow.truncated self t x) (RefPart b g) E :=
  sim_then sim_through fun _ => sim_len_then <| sim_once subUsize_no fun _ _ =>
    sim_bind (sim_truncateStr hx) fun ⟨a, k⟩ ⟨c, y⟩ _ ⟨h1, h2, h3, h4⟩ => by
      dsimp only at h1 h2 h3 h4
      subst h1 h2 h4
      exact sim_then sim_retagShared fun _ => sim_pure ⟨rfl, rfl, h3, rfl⟩

theorem sim_pushStrTruncate {x : Bytes} (hx : Part b x) (hg : Valid N g) :
    Sim K b g (pushStrTruncate self arg x.length : M (Mem R N) ε _) (Borrow.pushStrTruncate self arg x) (Good N) E :=
  sim_passShared fun _ => sim_then sim_retagTwoPhase fun _ => sim_bind (sim_truncated hx)
    fun ⟨a, k⟩ ⟨c, y⟩ _ ⟨h1, h2, h3, h4⟩ => by
      dsimp only at h1 h2 h3 h4
      subst h1 h2 h4
      refine sim_bind (sim_attempt (sim_passUnique fun _ => sim_tryPushStr h3 hg)) fun _ _ _ h => sim_pure ⟨rfl, ?_⟩
      rcases h with ⟨_, _, _, _, h⟩ | ⟨_, _, _, h⟩
      · exact h.2
      · exact h

omit [ValidCapacity N] in
theorem part_self {w : List Char} : Part (utf8 w) (utf8 w) := ⟨List.prefix_refl _, w, rfl⟩

omit [ValidCapacity N] in
theorem sim_pushed {ch : Char} {body : Tag → Tag → Nat → M (Mem R N) ε α} {body' : Tag → Tag → Bytes → M (World R N) ε α}
    (hg : Valid N g)
    (h : ∀ g' u a, Valid N g' → Sim (Str.encodeUtf8 ch).length (Str.encodeUtf8 ch) g' (body u a (Str.encodeUtf8 ch).length)
      (body' u a (Str.encodeUtf8 ch)) (Good N) (Valid N)) :
    Sim K b g (withBuf (List.replicate 4 0) fun buf => do
        let u ← retagTwoPhase self
        let (a, k) ← encode buf ch
        passUnique u 0 (N + 1) fun self => body self a k)
      (Borrow.withBuf 4 fun buf => do
        let u ← Borrow.retagTwoPhase self
        let a ← Borrow.encode buf ch
        Borrow.passUnique u 0 (N + 1) fun self => body' self a (Str.encodeUtf8 ch)) (Good N) (Valid N) := by
  refine sim_withBuf rfl (Q' := Good N) (E' := Valid N) (K' := (Str.encodeUtf8 ch).length) (fun _ => ?_) (fun _ _ _ _ h1 ⟨h2, h3⟩ => ⟨h2, valid_congr h1 h3⟩)
    (fun _ _ h1 h2 => valid_congr h1 h2)
  refine sim_then sim_retagTwoPhase fun _ => ?_
  unfold encode Borrow.encode
  simp only [bind_assoc]
  refine sim_storeText (K := (Str.encodeUtf8 ch).length) (Nat.le_refl _) fun ht => ?_
  refine sim_then sim_retagShared fun _ => sim_given ht ?_
  refine sim_passUnique fun _ => h _ _ _ (valid_congr ?_ hg)
  rw [strOf_placed]
  exact strOf_congr fun l hl => by rw [if_pos hl]

omit [ValidCapacity N] in
theorem part_char {ch : Char} : Part (Str.encodeUtf8 ch) (Str.encodeUtf8 ch) :=
  ⟨List.prefix_refl _, [ch], encodeUtf8_eq ch⟩

theorem sim_tryPush {ch : Char} (hg : Valid N g) :
    Sim K b g (tryPush self ch : M (Mem R N) _ _) (Borrow.tryPush self ch) (Good N) (Valid N) :=
  sim_pushed (body := fun u a k => tryPushStr u a k) (body' := fun u a x => Borrow.tryPushStr u a x) hg
    fun _ _ _ hg => sim_tryPushStr part_char hg

theorem sim_tryInsertStr {x : Bytes} (hx : Part b x) (hg : Valid N g) :
    Sim K b g (tryInsertStr self arg idx x.length : M (Mem R N) _ Unit) (Borrow.tryInsertStr self arg idx x) (Good N) (Valid N) :=
  sim_passShared fun _ => sim_len_then <| sim_try_then hg fun _ _ =>
    (sim_callMut fun _ => sim_replaceRangeOn hx hg).mono (fun _ _ _ h => ⟨rfl, h⟩) fun _ h => h

theorem sim_tryInsert {ch : Char} (hg : Valid N g) :
    Sim K b g (tryInsert self idx ch : M (Mem R N) _ _) (Borrow.tryInsert self idx ch) (Good N) (Valid N) :=
  sim_pushed (body := fun u a k => tryInsertStr u a idx k) (body' := fun u a x => Borrow.tryInsertStr u a idx x) hg
    fun _ _ _ hg => sim_tryInsertStr part_char hg

theorem sim_insertStrTruncate {x : Bytes} (hx : Part b x) (hg : Valid N g) :
    Sim K b g (insertStrTruncate self arg idx x.length : M (Mem R N) _ _) (Borrow.insertStrTruncate self arg idx x) (Good N)
      (Valid N) :=
  sim_passShared fun _ => sim_then sim_retagTwoPhase fun _ => sim_bind (sim_truncated hx)
    fun ⟨a, k⟩ ⟨c, y⟩ _ ⟨h1, h2, h3, h4⟩ => by
      dsimp only at h1 h2 h3 h4
      subst h1 h2 h4
      exact sim_passUnique fun _ => sim_tryInsertStr h3 hg

theorem sim_writeStr {x : Bytes} (hx : Part b x) (hg : Valid N g) :
    Sim K b g (writeStr self arg x.length : M (Mem R N) _ _) (Borrow.writeStr self arg x) (Good N) (Valid N) :=
  sim_passShared fun _ => sim_mapErr (sim_callMut fun _ => sim_tryPushStr hx hg)

end Verif.Machine
