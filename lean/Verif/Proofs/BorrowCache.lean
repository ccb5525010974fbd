import Verif.Model.BorrowCache
import Verif.Proofs.BorrowOps

/-!
# Every call of a `CacheString` behaves with tags as it does without

For `Props/BorrowCache.lean`.
-/

namespace Verif.Borrow
open Spec

variable {R : Rules} {L : Laws R} {N : Nat} {ε ε' α β γ δ : Type}
variable {φ φ' : Nat → R.St → Prop} {A : Text R N} {T P : Nat → List Tag} {w : World R N}
variable {root caller self arg : Tag} {c : Nat → List Ref} {d q : List Ref}

/-! ## `Deref` -/

section
variable {b : Nat → Tag} {B : Nat → R.St → Prop} {total : Nat} {s : ArrayString N}

theorem runs_deref (hself : Usable b T caller 0 (N + 1)) (hh : N + 1 ≤ total) :
    Runs L b B total s (Cache.deref caller : M _ ε _) T P (fun u T' => Covers T' u 0 (N + 1)) :=
  runs_bind (runs_shared hself hh) fun _ _ _ hc =>
    runs_through hc.usable hh (Nat.le_refl _) (Nat.le_refl _)

end

/-- What `deref_mut` gives back is in use, on top of a borrow made from what it was given. -/
theorem State.derefMut (h : State L (Home L root fun _ => q) A T P w) (hc : tagOf root q = caller) :
    ∃ v t w', (Cache.derefMut caller : M (World R N) ε Tag) w = (.ok v, w') ∧ w'.str = w.str ∧
      State L (Home L root fun _ => ⟨v, .new, false⟩ :: ⟨t, .new, false⟩ :: q) A T P w' := by
  obtain ⟨w1, e1, s1, g1⟩ := h.unique (ε := ε) (lo := 0) (hi := N + 1) (t := caller) (p := false)
    (φ' := Home L root fun _ => ⟨w.next, .new, false⟩ :: q) (by omega)
    (fun l st _ _ hm hb => hc ▸ Top.enter false hm hb) (fun l st _ _ => by omega)
  obtain ⟨w2, e2, s2, g2⟩ := g1.unique (ε := ε) (lo := 0) (hi := N + 1) (t := w.next) (p := true)
    (φ' := Home L root fun _ => ⟨w1.next, .new, true⟩ :: ⟨w.next, .new, false⟩ :: q) (by omega)
    (fun l st _ _ hm hb => L.main_unique true hm hb) (fun l st _ _ => by omega)
  obtain ⟨w3, e3, s3, g3⟩ := g2.unique (ε := ε) (lo := 0) (hi := N + 1) (t := w1.next) (p := false)
    (φ' := Home L root fun _ => ⟨w2.next, .new, false⟩ :: ⟨w1.next, .new, true⟩ :: ⟨w.next, .new, false⟩ :: q) (by omega)
    (fun l st _ _ hm hb => L.main_unique false hm hb) (fun l st _ _ => by omega)
  obtain ⟨w4, e4, s4, _, g4⟩ := g3.touch (ε := ε) (lo := 0) (hi := N + 1) (f := R.release w1.next)
    (φ' := Home L root fun _ => ⟨w2.next, .new, false⟩ :: ⟨w.next, .new, false⟩ :: q) (by omega)
    (fun l st _ _ hm hb => by
      obtain ⟨st', q1, q2, q3⟩ := L.main_release_under hm hb
      exact ⟨st', q1, L.main_hide q2 (by simp), q3⟩)
    (fun l st _ _ => by omega)
  obtain ⟨w5, e5, s5, g5⟩ := g4.unique (ε := ε) (lo := 0) (hi := N + 1) (t := w2.next) (p := false)
    (φ' := Home L root fun _ => ⟨w4.next, .new, false⟩ :: ⟨w.next, .new, false⟩ :: q) (by omega)
    (fun l st _ _ hm hb => by
      obtain ⟨st', q1, q2, q3⟩ := L.main_unique false hm hb
      exact ⟨st', q1, L.main_hide q2 (by simp), q3⟩) (fun l st _ _ => by omega)
  refine ⟨w4.next, w.next, w5, ?_, s5.trans (s4.trans (s3.trans (s2.trans s1))), g5⟩
  unfold Cache.derefMut Borrow.throughMut Borrow.release
  rw [bind_ok e1, bind_ok e2, bind_ok e3, bind_ok e4, e5]

theorem sim_derefMut {body : Tag → M (World R N) ε α} {m₀ : M (ArrayString N) ε β}
    {Q : α → β → (Nat → List Tag) → Prop}
    (h : State L (Home L root fun _ => q) A T P w) (hc : tagOf root q = caller) (hq : useAll q = q)
    (hb : ∀ q' v w', useAll q' = q' → tagOf root q' = v → w'.str = w.str → State L (Home L root fun _ => q') A T P w' →
      Sim L (Home L root fun _ => q') A P T (body v) m₀ w' Q) :
    Sim L (Home L root fun _ => q) A P T (Cache.derefMut caller >>= body) m₀ w Q := by
  obtain ⟨v, t, w1, e1, s1, g1⟩ := h.derefMut (ε := ε) hc
  refine sim_left e1 s1 .refl ?_
  have hu : useAll (⟨v, .new, false⟩ :: ⟨t, .new, false⟩ :: q) = ⟨v, .used, false⟩ :: ⟨t, .used, false⟩ :: q := by
    rw [useAll_cons, useAll_cons, hq]; rfl
  have g2 := g1.use
  simp only [hu] at g2
  refine sim_map (hb _ v w1 ?_ rfl s1 g2) fun l st _ hm => Top.pop (Top.pop hm rfl) rfl
  rw [← hu, useAll_idem]

/-! ## Methods -/

theorem sim_cacheWriteStr [ValidCapacity N] {slice : Bytes} (h : State L (Home L root (own self d)) A T P w)
    (hd : useAll d = d) (hN : N + 1 + slice.length ≤ A.total)
    (ht : Usable A.b T arg (N + 1) (N + 1 + slice.length)) (hs : Shape w.str) :
    Same L (Home L root (own self d)) A P T (Cache.writeStr self arg slice) (ArrayString.writeStr slice) w := by
  refine sim_passText h ht (by omega) hN fun text w1 T1 P1 s1 g1 k1 c1 => ?_
  refine sim_callOwn g1 hd fun d' u w3 hd' s3 g3 => ?_
  exact sim_writeStr g3 hd' hN c1.usable (by rw [s3, s1]; exact hs)

theorem sim_cacheWriteAll [ValidCapacity N] {l : List Bytes} (h : State L (Home L root (own self d)) A T P w)
    (hd : useAll d = d) (hN : ∀ b ∈ l, N + 1 + b.length ≤ A.total)
    (ht : Usable A.b T arg (N + 1) A.total) (hs : Shape w.str) :
    Same L (Home L root (own self d)) A P T (Cache.writeAll self arg l)
      (Fmt.write ArrayString.sink (l.map .lit)) w := by
  induction l generalizing w T with
  | nil => exact sim_pure h hs rfl
  | cons b l ih =>
    have hb := hN b List.mem_cons_self
    have hr : ∀ {m : M (World R N) FmtError Unit} {m₀ : M (ArrayString N) FmtError Unit},
        Same L (Home L root (own self d)) A P T m m₀ w →
        Same L (Home L root (own self d)) A P T (m >>= fun _ => Cache.writeAll self arg l)
          (m₀ >>= fun _ => Fmt.write ArrayString.sink (l.map .lit)) w := fun h =>
      sim_bind h (fun _ _ _ h => h) fun _ _ w1 T1 _ g1 k1 hs1 _ =>
        ih g1 (fun b h => hN b (List.mem_cons_of_mem _ h)) (k1.usable ht (by omega)) hs1
    unfold Cache.writeAll
    rw [List.map_cons, Fmt.write]
    split
    · exact hr (m := pure ()) (m₀ := pure ()) (sim_pure h hs rfl)
    · refine hr (sim_callOwn h hd fun d' u w1 hd' s1 g1 => ?_)
      exact sim_cacheWriteStr g1 hd' hb (fun l h1 h2 => ht l h1 (by omega)) (by rw [s1]; exact hs)

theorem sim_cacheSplit [ValidCapacity N] {at_ : Nat} (h : State L (Home L root fun _ => q) A T P w)
    (hs : Shape w.str) (hc : tagOf root q = caller) (hq : useAll q = q) :
    Same L (Home L root fun _ => q) A P T (do
      let t ← callMut caller fun self => Cache.splitOff self at_
      let _ ← withLocal t 0 0 fun t => do
        let v ← Cache.deref t
        look v
      M.lift t.asStr) (do
      let t ← ArrayString.splitOff at_
      M.lift t.asStr) w := by
  refine sim_bind (Q := fun x y _ => x = y ∧ Shape x) (sim_callMut h hc hq
    fun t u w1 s1 g1 => sim_callOwn g1 (use_q hq) fun d' u w2 hd' s2 g2 =>
      sim_splitOff g2 hd' (by rw [s2, s1]; exact hs)) (fun _ _ _ h => h) ?_
  rintro x _ w1 T1 _ g1 _ hs1 ⟨rfl, hx⟩
  have := runsR_local (L := L) (b := bases (fun _ => caller) A) (B := props (Home L root fun _ => q) A)
    (total := A.total) (s := w1.str) (T := above N T1) (P := above N P) (init := x) (lo := 0) (hi := 0)
    (body := fun t => (do
      let v ← Cache.deref t
      look v : M (World R N) Error Nat)) (m₀ := pure x.len) (Nat.zero_le _) fun root v hv g => ?_
  · obtain ⟨r, w2, T2, e2, s2, m2, g2⟩ := g1.runR (b := fun _ => caller) (stable_top hc) hs1 this
    replace m2 : Match _ r (.ok (x.len, x)) := m2
    cases m2 with
    | ok hq =>
      obtain ⟨g2, k2, _⟩ := g2 settled_ok
      exact sim_left e2 s2 k2 (sim_lift g2 (by rw [s2]; exact hs1))
  · obtain ⟨a, w2, T2, e2, s2, g2, k2, h2⟩ := g.run (b := fun _ => root) (fun _ _ => L.stable_root)
      (runs_bind (runs_deref (ε := Error) (usable_self fun _ _ => rfl) (Text.lt _)) fun _ _ _ hc =>
        runs_look hc.usable (Text.lt _) (by rw [hv]; exact hx.2))
    exact ⟨_, w2, T2, e2, s2, .ok (by rw [h2, hv]), fun _ => ⟨g2, k2, by rw [hv]; exact hx⟩⟩

/-! ## Slices -/

theorem cacheIndexes {i : IdxU8} : Indexes (ε := ε) L root A P i fun self => Cache.indexMutOn self i := by
  intro self c T w h hs
  obtain ⟨w1, e1, s1, g1⟩ := h.fresh (ε := ε) (lo := 0) (hi := N + 1) (f := R.twoPhase self)
    (φ' := fun _ => L.Main root (⟨w.next, .raw, false⟩ :: ⟨self, .new, true⟩ :: c)) (by omega)
    (fun l st _ _ hm hb => L.main_two hm hb) (fun l st _ _ => by omega)
  obtain ⟨w2, e2, s2, g2⟩ := g1.unique (ε := ε) (lo := 0) (hi := N + 1) (t := w.next) (p := true)
    (φ' := fun _ => L.Main root (⟨w1.next, .new, true⟩ :: ⟨w.next, .raw, false⟩ :: ⟨self, .new, true⟩ :: c)) (by omega)
    (fun l st _ _ hm hb => L.main_unique true hm hb) (fun l st _ _ => by omega)
  have s2 := s2.trans s1
  obtain ⟨w3, T3, s3, k3, g3⟩ := g2.indexMutOn (ε := ε) (i := i) (by rw [s2]; exact hs)
  have s3 := s3.trans s2
  rw [s2] at g3
  have call : ∀ {r : Res ε (Tag × Nat × Nat)} {w4 : World R N}, Settled r →
      (indexMutOn w1.next i : M _ ε _) w2 = (r, w3) →
      (release w1.next 0 (N + 1) : M (World R N) Empty Unit) w3 = (.ok (), w4) →
      callMut self (fun self => indexMutOn self i) w = (r, w4) := by
    intro r w4 hr e3 e4
    unfold callMut passUnique retagTwoPhase
    rw [bind_ok e1, bind_ok e2, protecting_run e3 hr e4]
  rcases g3 with ⟨e3, hp, u, g3⟩ | ⟨v, x, y, e3, hy, g3, ht⟩ | ⟨e3, hp, hv⟩
  · obtain ⟨w4, e4, s4, g4⟩ := g3.leave (ε := Empty)
    refine ⟨w4, T3, s4.trans s3, k3, .inl ⟨?_, hp, u, (g4.hide (by simp)).hide (by simp)⟩⟩
    show M.bind _ _ w = _
    rw [M.bind, call (r := .panic) ⟨nofun, nofun⟩ e3 e4]
  · obtain ⟨w4, e4, s4, g4⟩ := g3.leave (ε := Empty)
    obtain ⟨u, w5, e5, s5, g5, _⟩ := (g4.hide (by simp)).again (ε := ε) (by omega)
    refine ⟨w5, T3, s5.trans (s4.trans s3), k3, .inr (.inl ⟨u, x, y, ?_, hy, g5.hide (by simp), ht⟩)⟩
    show (Cache.indexMutOn self i : M _ ε _) w = _
    unfold Cache.indexMutOn
    rw [bind_ok (call settled_ok e3 e4)]
    simp only
    rw [bind_ok e5]
    rfl
  · refine ⟨w3, T3, s3, k3, .inr (.inr ⟨?_, hp, hv⟩)⟩
    show (Cache.indexMutOn self i : M _ ε _) w = _
    unfold Cache.indexMutOn callMut passUnique retagTwoPhase
    show M.bind _ _ w = _
    rw [M.bind, bind_ok e1, bind_ok e2, protecting_fail e3 (fun h => h.1 rfl)]

section
variable {b : Nat → Tag} {B : Nat → R.St → Prop} {total : Nat} {s : ArrayString N}

theorem runsR_cacheIndex {i : IdxU8} (hself : Usable b T caller 0 (N + 1)) (hh : N + 1 ≤ total) (hs : Shape s) :
    RunsR L b B total s (Cache.index caller i : M _ ε _) T P (s.index i) (fun x y _ => x = y) := by
  have e : (s.index i >>= Res.ok : Res ε Bytes) = s.index i := by cases (s.index i : Res ε Bytes) <;> rfl
  rw [← e]
  have h1 : RunsR L b B total s (Cache.indexRef caller i : M _ ε _) T P (s.index i)
      (fun x y T' => x.2.2.2 = y ∧ x.2.2.1 ≤ N ∧ Covers T' x.1 x.2.1 x.2.2.1) := by
    rw [← e]
    refine runsR_bind (runsR_call hself hh fun u T1 P1 k1 c1 => runsR_indexRef c1.usable hh hs) ?_
    rintro ⟨a, x, y, t⟩ _ T1 k1 ⟨rfl, hy, c1, _⟩
    simp only at hy c1 ⊢
    exact runsR_left (runs_shared c1.usable (by omega)) fun a T3 k3 c3 =>
      runsR_of_runs (runs_pure (Q := fun z T' => z = (a, x, y, t) ∧ Covers T' a x y) ⟨rfl, c3⟩)
        (by rintro _ _ ⟨rfl, c⟩; exact ⟨rfl, hy, c⟩)
  refine runsR_bind h1 ?_
  rintro ⟨a, x, y, t⟩ _ T1 k1 ⟨rfl, hy, c1⟩
  simp only at hy c1 ⊢
  exact runsR_left (runs_read c1.usable (by omega)) fun _ T3 k3 _ =>
    runsR_of_runs (runs_pure (Q := fun x _ => x = t) rfl) (by rintro _ _ rfl; rfl)

end

theorem sim_cacheText {edit : Bytes → Bytes} (h : State L (Home L root fun _ => q) A T P w) (hs : Shape w.str)
    (hc : tagOf root q = caller) (hq : useAll q = q) :
    Same L (Home L root fun _ => q) A P T (Cache.editText caller edit : M _ ε _) (ArrayString.asMut edit) w := by
  have := sim_editText (ε := ε) (edit := edit) h hs hc hq
  unfold editText asMutStr at this
  unfold Cache.editText
  rw [bind_assoc'] at this
  exact this

/-! ## Every call -/

section
variable {total : Nat} {hN : N < total}

/-- Every call, with the text behind any reference that may be read through. -/
theorem sim_cacheExecVia [ValidCapacity N] {op : Op}
    (g : State L (Home L root fun _ => q) A T P w) (hs : Shape w.str)
    (ht : ∀ t ∈ texts op, N + 1 + (utf8 t).length ≤ A.total) (ha : Usable A.b T arg (N + 1) A.total)
    (hc : tagOf root q = caller) (hq : useAll q = q) :
    Same L (Home L root fun _ => q) A P T (Cache.exec caller arg op) (Verif.exec op) w := by
  have hroot : ∀ l, l ≤ N → L.Stable caller (Home L root (fun _ => q) l) := stable_top hc
  have hN := A.lt
  have harg : ∀ {hi}, hi ≤ A.total → Usable A.b T arg (N + 1) hi := fun hh l h1 h2 => ha l h1 (by omega)
  have harg' : ∀ {b : Nat → Tag} {hi}, hi ≤ A.total → Usable (bases b A) (above N T) arg (N + 1) hi :=
    fun hh l h1 h2 => by
      have := ha l h1 (by omega)
      simpa [bases, above, if_neg (show ¬ l ≤ N by omega)] using this
  have hself : ∀ {T}, Usable (bases (fun _ => caller) A) T caller 0 (N + 1) :=
    usable_self fun _ _ => rfl
  have make {ε β : Type} [Verif.Kind ε] {m : M (World R N) ε (ArrayString N)} {r : Res ε β}
      {get : β → ArrayString N}
      (hm : RunsR L (bases (fun _ => caller) A)
        (props (Home L root fun _ => q) A) A.total w.str m (above N T) (above N P) r fun x y _ => x = get y ∧ Shape x) :
      Same L (Home L root fun _ => q) A P T
        (construct caller m) (Verif.construct r get) w :=
    sim_construct (g.runR (b := fun _ => caller) hroot hs hm) hc hq
  have query {ε α : Type} [Verif.Kind ε] {m : M (World R N) ε Unit} {f : ArrayString N → Res ε α}
      {out : α → Out} {Q : Unit → (Nat → List Tag) → Prop}
      (hm : Runs L (bases (fun _ => caller) A)
        (props (Home L root fun _ => q) A) A.total w.str m (above N T) (above N P) Q) :
      Same L (Home L root fun _ => q) A P T
        (query m f out) (Verif.query f out) w :=
    sim_query (b := fun _ => caller) g hroot hs hm
  have inner (h : Cache.exec (R := R) (N := N) caller arg op = exec caller arg op) :
      Same L (Home L root fun _ => q) A P T
        (Cache.exec caller arg op) (Verif.exec op) w := by
    rw [h]; exact sim_execVia g hs ht ha hc hq
  have through (h : Cache.exec (R := R) (N := N) caller arg op = (do
      let v ← Cache.derefMut caller
      exec v arg op)) :
      Same L (Home L root fun _ => q) A P T
        (Cache.exec caller arg op) (Verif.exec op) w := by
    rw [h]
    exact sim_derefMut g hc hq fun q' v w' h1 h2 h3 g' => sim_execVia g' (by rw [h3]; exact hs) ht ha h2 h1
  cases op with
  | new => exact inner rfl
  | default => exact inner rfl
  | tryFromIterator => exact inner rfl
  | fromIteratorTruncate => exact inner rfl
  | collectStrs => exact inner rfl
  | tryFromChars => exact inner rfl
  | fromCharsTruncate => exact inner rfl
  | collectChars => exact inner rfl
  | tryFromUtf16 => exact inner rfl
  | fromUtf16Truncate => exact inner rfl
  | fromUtf16LossyTruncate => exact inner rfl
  | capacity => exact inner rfl
  | tryPushStr => exact through rfl
  | pushStrTruncate => exact through rfl
  | tryPush => exact through rfl
  | truncate => exact through rfl
  | pop => exact through rfl
  | trim => exact through rfl
  | remove => exact through rfl
  | retain => exact through rfl
  | tryInsert => exact through rfl
  | tryInsertStr => exact through rfl
  | insertStrTruncate => exact through rfl
  | clear => exact through rfl
  | drain => exact through rfl
  | replaceRange => exact through rfl
  | asMutStr => exact through rfl
  | tryFromStr t =>
    have ht := ht t (by simp [texts])
    exact make (get := id) (runsR_pass (harg' ht) ht fun u T1 P1 k1 c1 =>
      runsR_tryFromStr c1.usable ht (by omega))
  | parse t =>
    have ht := ht t (by simp [texts])
    exact make (get := id) (runsR_pass (harg' ht) ht fun u T1 P1 k1 c1 =>
      runsR_tryFromStr c1.usable ht (by omega))
  | fromStrTruncate t =>
    have ht := ht t (by simp [texts])
    exact make (get := id) (runsR_pass (harg' ht) ht fun u T1 P1 k1 c1 => runsR_fromStrTruncate c1.usable ht)
  | from_ t =>
    have ht := ht t (by simp [texts])
    exact make (get := id) (runsR_pass (harg' ht) ht fun u T1 P1 k1 c1 => runsR_fromStrTruncate c1.usable ht)
  | splitOff i => exact sim_call (sim_cacheSplit g hs hc hq)
  | extendChars l =>
    exact sim_method' (hc := hc) (hq := hq) g (fun _ _ _ _ => rfl) fun d u w' hd s g =>
      sim_callOwn g hd fun d' u w2 hd' s2 g2 =>
        sim_extend g2 hd' (by rw [s2, s]; exact hs) fun t => runsR_fromCharsTruncate
  | extendStrs ws =>
    exact sim_method' (hc := hc) (hq := hq) g (fun _ _ _ _ => rfl) fun d u w' hd s g =>
      sim_callOwn g hd fun d' u w2 hd' s2 g2 =>
        sim_extend g2 hd' (by rw [s2, s]; exact hs) fun t =>
          runsR_fromIteratorTruncate (harg' (widest_twice hN ht)) (widest_twice hN ht)
  | add t =>
    have ht := ht t (by simp [texts])
    refine sim_right (m₀ := M.self) (b := w.str) rfl (make (get := id) ?_)
    exact runsR_left (runs_read hself hN) fun _ T1 k1 _ =>
      runsR_left runs_get fun _ T2 k2 e => by
        subst e
        exact runsR_pass ((harg' ht).grow (k1.trans k2)) ht fun u T3 P3 k3 c3 => runsR_addTo c3.usable ht hs
  | writeStr t =>
    exact sim_method (hc := hc) (hq := hq) g fun d u w' hd s g =>
      sim_cacheWriteStr g hd (ht t (by simp [texts])) (harg (ht t (by simp [texts]))) (by rw [s]; exact hs)
  | writeFmt ws =>
    refine sim_method (hc := hc) (hq := hq) g fun d u w' hd s g => sim_callOwn g hd fun d' u w2 hd' s2 g2 => ?_
    have := sim_cacheWriteAll (arg := arg) (l := ws.map utf8) g2 hd' (fun b hb => by
      obtain ⟨t, h1, rfl⟩ := List.mem_map.1 hb
      exact ht t h1) ha (by rw [s2, s]; exact hs)
    rw [List.map_map] at this
    exact this
  | index i =>
    exact sim_right (m₀ := M.self) (b := w.str) rfl
      (sim_call (g.runR (b := fun _ => caller) hroot hs (runsR_cacheIndex hself hN hs)))
  | indexMut i e => exact sim_call (sim_editVia cacheIndexes g hs hc hq)
  | asStr =>
    exact query (runs_bind (runs_deref hself hN) fun _ _ _ c => runs_discard (runs_look c.usable hN hs.2))
  | asBytes =>
    refine query (Q := fun _ _ => True) (runs_bind (runs_callRef hself hN hs.2 fun _ _ _ _ c => runs_asRefBytes c.usable hN hs.2) ?_)
    rintro ⟨a, n⟩ T1 k1 ⟨rfl, c1⟩
    have := hs.2
    exact runs_read c1.usable (by omega)
  | len =>
    exact query (runs_bind (runs_deref hself hN) fun _ _ _ c => runs_discard (runs_len c.usable hN))
  | isEmpty =>
    exact query (runs_bind (runs_deref hself hN) fun _ _ _ c => runs_discard (runs_asRefStr c.usable hN hs.2))
  | eqStr t =>
    have ht := ht t (by simp [texts])
    refine query (Q := fun _ _ => True) (runs_pass (harg' ht) ht fun u T1 P1 k1 c1 => ?_)
    refine runs_call hself hN fun v T2 P2 k2 c2 => ?_
    refine runs_pass (c1.grow k2).usable ht fun x T3 P3 k3 c3 => ?_
    exact runs_bind (runs_reading (c2.grow k3).usable hN hs) fun _ T4 k4 _ => runs_read (c3.grow k4).usable ht
  | hash => exact query (runs_call hself hN fun _ _ _ _ c => runs_reading c.usable hN hs)
  | display => exact query (runs_call hself hN fun _ _ _ _ c => runs_reading c.usable hN hs)

theorem sim_cacheExecAt [ValidCapacity N] {op : Op}
    (g : State L (Home L root fun _ => q) (argText R arg total hN) (fun _ => []) (fun _ => []) w) (hs : Shape w.str)
    (ht : ∀ t ∈ texts op, N + 1 + (utf8 t).length ≤ total)
    (hc : tagOf root q = caller) (hq : useAll q = q) :
    Same L (Home L root fun _ => q) (argText R arg total hN) (fun _ => []) (fun _ => [])
      (Cache.exec caller arg op) (Verif.exec op) w :=
  sim_cacheExecVia g hs ht (fun _ _ _ => Or.inl rfl) hc hq

theorem sim_cacheExec [ValidCapacity N] {op : Op} (h : Ready L caller arg total w) (hs : Shape w.str)
    (ht : ∀ t ∈ texts op, N + 1 + (utf8 t).length ≤ total) :
    Same L (Home L caller fun _ => []) (argText R arg total hN) (fun _ => []) (fun _ => [])
      (Cache.exec caller arg op) (Verif.exec op) w :=
  sim_cacheExecAt (h.state hN) hs ht rfl rfl

end

end Verif.Borrow
