import Verif.Proofs.Client

/-!
# Each statement of a program that keeps references
-/

namespace Verif.Spec

/-! ## Replacing a part by one of the same length -/

theorem boundary_before {a b b' : List Char} {i : Nat} (hi : i ≤ byteLen a) (h : IsBoundary (a ++ b) i) :
    IsBoundary (a ++ b') i := by
  obtain ⟨pre, post, h1, h2⟩ := h
  rcases List.append_eq_append_iff.1 h1 with ⟨y, rfl, rfl⟩ | ⟨y, rfl, rfl⟩
  · rw [byteLen_append] at h2
    have : y = [] := byteLen_eq_zero.1 (by omega)
    subst this
    exact ⟨a, b', rfl, by omega⟩
  · exact ⟨pre, y ++ b', by simp, h2⟩

theorem boundary_after {a a' b : List Char} {i : Nat} (ha : byteLen a' = byteLen a) (hi : byteLen a ≤ i)
    (h : IsBoundary (a ++ b) i) : IsBoundary (a' ++ b) i := by
  obtain ⟨pre, post, h1, h2⟩ := h
  rcases List.append_eq_append_iff.1 h1 with ⟨y, rfl, rfl⟩ | ⟨y, rfl, rfl⟩
  · rw [byteLen_append] at h2
    exact ⟨a' ++ y, post, by simp, by rw [byteLen_append]; omega⟩
  · rw [byteLen_append] at ha hi
    have : y = [] := byteLen_eq_zero.1 (by omega)
    subst this
    exact ⟨a', b, rfl, by simp at ha; omega⟩

theorem sliceOk_swap {p m m' q : List Char} {r : Nat × Nat} (hm : byteLen m' = byteLen m)
    (h1 : r.1 ≤ byteLen p) (h2 : byteLen (p ++ m) ≤ r.2) (h : SliceOk (p ++ m ++ q) r) :
    SliceOk (p ++ m' ++ q) r := by
  refine ⟨h.1, ?_, boundary_after (a := p ++ m) (by simp [hm]) h2 h.2.2⟩
  have := h.2.1
  rw [List.append_assoc] at this ⊢
  exact boundary_before h1 this

theorem sliceOk_part {cs p m q : List Char} {lo hi x y : Nat} (h : SliceAt cs (lo, hi) p m q)
    (h' : SliceOk m (x, y)) : SliceOk cs (lo + x, lo + y) ∧ lo + y ≤ hi := by
  obtain ⟨p', m', q', e, h2, h3⟩ := sliceOk_iff.1 h'
  obtain ⟨rfl, h4, h5⟩ := h
  subst e
  simp only [byteLen_append] at h2 h3 h4 h5
  refine ⟨sliceOk_iff.2 ⟨p ++ p', m', q' ++ q, by simp, ?_, ?_⟩, by omega⟩ <;> simp only [byteLen_append] <;> omega

end Verif.Spec

namespace Verif.Borrow
open Spec

variable {R : Rules} {L : Laws R} {N : Nat} {ε α β : Type} {caller arg root : Tag} {top : Nat} {w : World R N}
  {g : List Ref} {ms : List Held} {T : Nat → List Tag}
  {hN : N < top} {c : Scope} {vars : Vars} {x : Client}

/-! ## The bytes of a part -/

theorem held_bytes {s : ArrayString N} {cs p m q : List Char} {h : Held} (hs : Holds s cs)
    (hc : SliceAt cs (h.lo, h.hi) p m q) :
    h.bytes s = utf8 m ∧ h.hi ≤ N ∧ s.array.take h.lo = utf8 p ∧ s.len = byteLen cs ∧
      ∃ rest, s.array.drop h.hi = utf8 q ++ rest ∧ rest = s.array.drop s.len := by
  obtain ⟨e, h1, h2⟩ := hc
  have hl : s.len = byteLen cs := by
    have := congrArg List.length hs.2.2
    rw [List.length_take, length_utf8] at this
    have := hs.1; have := hs.2.1
    show s.size.toNat = _
    omega
  have hN : s.len ≤ N := hs.2.1
  have ha : s.array = utf8 p ++ (utf8 m ++ (utf8 q ++ s.array.drop s.len)) := by
    conv => lhs; rw [← List.take_append_drop s.len s.array, show s.array.take s.len = utf8 cs from hs.2.2, e]
    simp
  simp only [byteLen_append] at h1 h2
  have hb : byteLen cs = byteLen p + byteLen m + byteLen q := by rw [e]; simp only [byteLen_append]
  have hm : s.array.drop h.hi = utf8 q ++ s.array.drop s.len := by
    conv => lhs; rw [ha]
    rw [← List.append_assoc]
    exact List.drop_left' (by simp; omega)
  refine ⟨?_, by omega, ?_, hl, _, hm, rfl⟩
  · unfold Held.bytes
    rw [ha, ← List.append_assoc, List.take_left' (by simp; omega), List.drop_left' (by simp; omega)]
  · rw [ha]; exact List.take_left' (by simp; omega)

theorem editBytes_run {s : ArrayString N} {cs p m q : List Char} {h : Held} {e : Edit} (hs : Holds s cs)
    (hc : SliceAt cs (h.lo, h.hi) p m q) :
    ∃ s', (editBytes h e.onBytes : M _ ε _) s = (.ok (), s') ∧ Holds s' (p ++ e.apply m ++ q) := by
  obtain ⟨h1, h2, h3, h4, rest, h5, h6⟩ := held_bytes hs hc
  have hb : (e.onBytes (utf8 m)).length = (utf8 m).length ∧ Str.validUtf8 (e.onBytes (utf8 m)) = true := by
    rw [onBytes_utf8]
    exact ⟨by simp [e.keeps], validUtf8_utf8 _⟩
  refine ⟨{ s with array := utf8 p ++ utf8 (e.apply m) ++ (utf8 q ++ rest) }, ?_, ?_⟩
  · unfold editBytes
    simp only [M.bind_apply, M.self_apply, M.lift_apply, h1, if_pos hb]
    rw [h3, h5, onBytes_utf8]
    rfl
  · have hl : s.len ≤ N := hs.2.1
    have hk := e.keeps m
    have hcs : byteLen cs = byteLen p + byteLen m + byteLen q := by rw [hc.1]; simp only [byteLen_append]
    refine ⟨?_, hs.2.1, ?_⟩
    · simp [h6, hs.1]; omega
    · show List.take s.len _ = _
      rw [← List.append_assoc, List.take_left' (by simp; omega)]
      simp

/-! ## Statements -/

/-- What has to be shown of a statement. -/
def Good (L : Laws R) (caller arg : Tag) (top : Nat) (hN : N < top) (p : Statement) (c' : Scope) (vars : Vars)
    (x : Client) (w : World R N) : Prop :=
  ∃ g' T' vars' w', perform caller arg p vars w = ((p.see N x).1.map Answer.toRes, vars', w') ∧
    Core L caller arg top hN g' T' c' vars' (p.see N x).2 w'

/-- A new `&mut str`, on top of the others. -/
theorem Core.addMut {w' : World R N} {g' : List Ref} {T' : Nat → List Tag} {a : Option Held} {b : Option Val}
    (h : Core L caller arg top hN g T c vars x w) (ht : c.texts = []) (hs : c.strs = []) (hw : w'.str = w.str)
    (hg : ∀ r ∈ g', r.protect = false)
    (hm : State L (Home L caller (chain g' (a.toList ++ c.muts.filterMap vars.get))) (argText R arg top hN) T'
      (fun _ => []) w')
    (hv : (a = none ∧ b = none) ∨ ∃ h v, a = some h ∧ b = some v ∧ v = .mut h.lo h.hi ∧
      SliceOk x.text (h.lo, h.hi) ∧ ∀ m ∈ c.muts.filterMap vars.get, m.lo ≤ h.lo ∧ h.hi ≤ m.hi) :
    Core L caller arg top hN g' (above N T') c.addMut (vars ++ [a]) ⟨x.text, x.vars ++ [b]⟩ w' := by
  have hl : x.vars.length = vars.length := h.count'.trans h.count.symm
  have hf : c.addMut.muts.filterMap (Vars.get (vars ++ [a])) = a.toList ++ c.muts.filterMap vars.get := by
    have := filterMap_append (a := a) (l := c.muts) (vars := vars) fun k hk => (h.muts k hk).1
    unfold Scope.addMut
    simp only
    rw [List.filterMap_cons, this, ← h.count, get_last]
    cases a <;> rfl
  have hc : c.addMut = ⟨c.count + 1, c.count :: c.muts, [], []⟩ := by unfold Scope.addMut; rw [ht, hs]
  rw [hc] at hf ⊢
  refine core_of_state (by rw [hw]; exact h.holds) (by simp [h.count]) (by simp [h.count']) hg nofun ?_ ?_ ?_
  · rw [hf]; exact hm
  · rw [hf]
    rcases hv with ⟨rfl, _⟩ | ⟨m, v, rfl, _, _, _, h3⟩
    · exact h.nested
    · exact List.pairwise_cons.2 ⟨h3, h.nested⟩
  · intro k hk
    rcases List.mem_cons.1 hk with rfl | hk
    · rw [← h.count]
      refine .last hl (hv.imp id ?_)
      rintro ⟨m, v, h1, h2, h3, h4, _⟩
      exact ⟨m, v, h1, h2, h3, h4⟩
    · exact (h.muts k hk).append hl

theorem usable_caller (hc : c.muts = []) {X : Nat → List Tag} :
    Usable (bases (fun l => tagOf caller (chain [] (c.muts.filterMap vars.get) l)) (argText R arg top hN)) X caller 0
      (N + 1) :=
  usable_self fun l _ => by rw [hc]; rfl

theorem usable_mut {b : Held} {X : Nat → List Tag} (hb : b.hi ≤ N) :
    Usable (bases (fun l => tagOf caller (chain g (b :: ms) l)) (argText R arg top hN)) X b.tag b.lo b.hi :=
  fun l h1 h2 => .inl (by
    show _ = if l ≤ N then _ else _
    rw [if_pos (by omega)]
    show _ = tagOf caller (chain g (b :: ms) l)
    rw [chain, push_in ⟨h1, h2⟩]
    rfl)

theorem usable_arg {b : Nat → Tag} {X : Nat → List Tag} : Usable (bases b (argText R arg top hN)) X arg (N + 1) top :=
  fun l h1 _ => .inl (if_neg (show ¬ l ≤ N by omega)).symm

/-- A call that takes `&self`. -/
theorem Core.exec [ValidCapacity N] {self : Tag} {op : Op} (h : Core L caller arg top hN g T c vars x w)
    (hop : op.shared = true) (hok : op.Ok)
    (hself : Usable (bases (fun l => tagOf caller (chain g (c.muts.filterMap vars.get) l)) (argText R arg top hN)) T
      self 0 (N + 1))
    (ht : ∀ t ∈ Borrow.texts op, N + 1 + (utf8 t).length ≤ top) :
    ∃ w' T', Borrow.exec self arg op w = ((step N op x.text).1.toRes, w') ∧ (step N op x.text).2 = x.text ∧
      Core L caller arg top hN g T' c vars x w' := by
  obtain ⟨h1, h2⟩ := runsR_exec (L := L) (P := above N fun _ => []) (B := props (Home L caller
    (chain g (c.muts.filterMap vars.get))) (argText R arg top hN)) hop hself usable_arg hN h.shape ht
  obtain ⟨h3, h4⟩ := exec_step op hok w.str x.text h.holds
  rw [h3] at h1
  obtain ⟨r', w', T', e1, e2, e3, e4⟩ := h.run h1 (toRes_ne _)
  rw [h2] at h4
  exact ⟨w', T', by rw [e1, e3.eq], h4.unique h.holds, e4⟩

theorem Core.call [ValidCapacity N] {op : Op} (h : Core L caller arg top hN g T c vars x w) (hok : op.Ok)
    (ht : ∀ t ∈ Borrow.texts op, N + 1 + (utf8 t).length ≤ top) :
    Good L caller arg top hN (.call op) (if op.shared then c.useShared else c.useMut) vars x w := by
  split
  next hop =>
    obtain ⟨T1, h1, hm⟩ := h.useShared
    obtain ⟨w', T', e1, e2, e3⟩ := h1.exec hop hok (usable_caller hm) ht
    refine ⟨[], T', vars, w', ?_, ?_⟩
    · simp only [perform, act, e1, Statement.see]; rfl
    · simp only [Statement.see, e2]; exact e3
  next =>
    obtain ⟨w', e1, s1, g1⟩ := borrow_op h.ready hN h.shape op (by simpa using ht)
    obtain ⟨h3, h4⟩ := exec_step op hok w.str x.text h.holds
    rw [h3] at e1 g1
    rw [← s1] at h4
    refine ⟨[], _, vars, w', ?_, core_of_ready (g1 (toRes_ne _)).1 ?_ h.count h.count'⟩
    · simp only [perform, act, e1, Statement.see]; rfl
    · exact h4

theorem Core.ask [ValidCapacity N] {op : Op} {k : Nat} (h : Core L caller arg top hN g T c vars x w) (hok : op.Ok)
    (ht : ∀ t ∈ Borrow.texts op, N + 1 + (utf8 t).length ≤ top) (hk : k ∈ c.strs) (hop : op.shared = true) :
    Good L caller arg top hN (.ask k op) c vars x w := by
  rcases (h.strs k hk).2 with ⟨h1, h2⟩ | ⟨a, v, h1, h2, rfl, h3⟩
  · refine ⟨g, T, vars, w, ?_, ?_⟩
    · simp [perform, act, h1, Statement.see, h2]
    · simpa [Statement.see, h2] using h
  · obtain ⟨w', T', e1, e2, e3⟩ := h.exec hop hok h3.usable ht
    refine ⟨g, T', vars, w', ?_, ?_⟩
    · simp [perform, act, h1, Statement.see, h2, e1]
    · simpa [Statement.see, h2] using e3

theorem Core.share (h : Core L caller arg top hN g T c vars x w) :
    Good L caller arg top hN .share c.useShared.addStr vars x w := by
  obtain ⟨T1, h1, hm⟩ := h.useShared
  obtain ⟨r', w', T', e1, e2, e3, e4⟩ := h1.run (ε := Failure) (r := .ok ()) (Z := fun t _ T => Covers T t 0 (N + 1))
    (runsR_of_runs (runs_shared (usable_caller hm) (by omega)) fun _ _ h => h) settled_ok
  cases e3 with
  | ok e3 =>
    refine ⟨[], T', _, w', ?_, e4.addStr (.inr ⟨⟨_, 0, N + 1⟩, .str, rfl, rfl, rfl, e3⟩)⟩
    simp only [perform, act, bind_ok e1, Statement.see, Client.make]
    rfl

theorem Core.read {k : Nat} (h : Core L caller arg top hN g T c vars x w) (hk : k ∈ c.texts) :
    Good L caller arg top hN (.read k) c vars x w := by
  rcases (h.texts k hk).2 with ⟨h1, h2⟩ | ⟨a, v, h1, h2, rfl, h3, h4⟩
  · refine ⟨g, T, vars, w, ?_, ?_⟩
    · simp [perform, act, h1, Statement.see, h2]
    · simpa [Statement.see, h2] using h
  · obtain ⟨r', w', T', e1, e2, e3, e4⟩ := h.run (ε := Failure) (r := .ok ()) (Z := fun _ _ _ => True)
      (runsR_of_runs (runs_read h4.usable (by omega)) fun _ _ h => h) settled_ok
    cases e3
    refine ⟨g, T', vars, w', ?_, ?_⟩
    · simp only [perform, act, h1, Option.map_some, Statement.see, h2, readHeld, bind_ok e1]
      rw [bind_ok (m := get) (w := w') (a := w'.str) rfl, e2]
      rfl
    · simpa [Statement.see, h2] using e4

theorem Core.makeText {m : M (World R N) Failure Held} {b : Option Bytes}
    (h : Core L caller arg top hN g T c vars x w)
    (hm : RunsR L (bases (fun l => tagOf caller (chain g (c.muts.filterMap vars.get) l)) (argText R arg top hN))
      (props (Home L caller (chain g (c.muts.filterMap vars.get))) (argText R arg top hN)) top w.str m T
      (above N fun _ => []) (match b with | some y => .ok y | none => .panic) fun h y T' =>
        h.bytes w.str = y ∧ h.hi ≤ N ∧ Covers T' h.tag h.lo h.hi) :
    ∃ r w' T', m w = (r, w') ∧
      (some (r >>= fun _ => .ok .unit) : Option (Res Failure Out)) = (x.make (b.map .text)).1.map Answer.toRes ∧
      Core L caller arg top hN g T' c.addText (vars ++ [made r]) (x.make (b.map .text)).2 w' := by
  obtain ⟨r', w', T', e1, e2, e3, e4⟩ := h.run hm (by cases b <;> exact ⟨nofun, nofun⟩)
  refine ⟨r', w', T', e1, ?_⟩
  cases b with
  | none =>
    cases e3
    exact ⟨rfl, e4.addText (.inl ⟨rfl, rfl⟩)⟩
  | some y =>
    cases e3 with
    | ok e3 =>
      obtain ⟨rfl, h1, h2⟩ := e3
      exact ⟨rfl, e4.addText (.inr ⟨_, _, rfl, rfl, by rw [e2], h1, h2⟩)⟩

/-- The string, directly or through a variable. -/
theorem Core.useFrom {f : Option Nat} {c' : Scope} (h : Core L caller arg top hN g T c vars x w)
    (hc : c.useFrom f = some c') : ∃ g' T', Core L caller arg top hN g' T' c' vars x w ∧
      ((origin caller vars f = none ∧ ∀ b, x.take f b = x.miss) ∨
       ∃ t, origin caller vars f = some t ∧ (∀ b, x.take f b = x.make (b.map .text)) ∧
        Usable (bases (fun l => tagOf caller (chain g' (c'.muts.filterMap vars.get) l)) (argText R arg top hN)) T'
          t 0 (N + 1)) := by
  cases f with
  | none =>
    cases hc
    obtain ⟨T1, h1, hm⟩ := h.useShared
    exact ⟨[], T1, h1, .inr ⟨caller, rfl, fun _ => rfl, usable_caller hm⟩⟩
  | some k =>
    unfold Scope.useFrom at hc
    simp only at hc
    split at hc
    next hk =>
      cases hc
      refine ⟨g, T, h, ?_⟩
      rcases (h.strs k hk).2 with ⟨h1, h2⟩ | ⟨a, v, h1, h2, rfl, h3⟩
      · exact .inl ⟨by simp [origin, h1], fun b => by simp [Client.take, h2]⟩
      · exact .inr ⟨a.tag, by simp [origin, h1], fun b => by simp [Client.take, h2], h3.usable⟩
    next => cases hc

theorem Core.miss (h : Core L caller arg top hN g T c vars x w) :
    Core L caller arg top hN g T c.addText (vars ++ [none]) x.miss.2 w := h.addText (.inl ⟨rfl, rfl⟩)

theorem Core.takes {f : Option Nat} {c' : Scope} {p : Statement} {m : Tag → M (World R N) Failure Held} {b : Option Bytes}
    (h : Core L caller arg top hN g T c vars x w) (hc : (c.useFrom f).map Scope.addText = some c')
    (ha : act caller arg vars p = .inr ((origin caller vars f).map m)) (hp : p.see N x = x.take f b)
    (hm : ∀ {B' : Nat → R.St → Prop} {b' T' P' self}, Usable b' T' self 0 (N + 1) →
      RunsR L b' B' top w.str (m self) T' P' (match b with | some y => .ok y | none => .panic) fun h y T' =>
        h.bytes w.str = y ∧ h.hi ≤ N ∧ Covers T' h.tag h.lo h.hi) :
    Good L caller arg top hN p c' vars x w := by
  obtain ⟨c1, h1, rfl⟩ := Option.map_eq_some_iff.1 hc
  obtain ⟨g', T', h2, h3⟩ := h.useFrom h1
  unfold Good
  rw [hp]
  rcases h3 with ⟨e1, e2⟩ | ⟨t, e1, e2, e3⟩
  · refine ⟨g', T', vars ++ [none], w, ?_, ?_⟩
    · rw [e2]; simp only [perform, ha, e1]; rfl
    · rw [e2]; exact h2.miss
  · obtain ⟨r, w', T1, i1, i2, i3⟩ := h2.makeText (hm e3)
    refine ⟨g', T1, _, w', ?_, by rw [e2]; exact i3⟩
    rw [e2]; simp only [perform, ha, e1, Option.map_some, i1, i2]

theorem Core.peek {k : Nat} (h : Core L caller arg top hN g T c vars x w) (hk : k ∈ c.muts) :
    Good L caller arg top hN (.peek k) (c.useSharedOf k).addText vars x w := by
  obtain ⟨T1, l, h1, hl⟩ := h.useSharedOf hk
  rcases (h.muts k hk).2 with ⟨i1, i2⟩ | ⟨a, v, i1, i2, rfl, i3⟩
  · refine ⟨g, T1, vars ++ [none], w, ?_, ?_⟩
    · simp [perform, act, i1, Statement.see, i2, Client.miss]
    · simp only [Statement.see, i2]; exact h1.miss
  · obtain ⟨p, m, q, hc⟩ := sliceOk_iff.1 i3
    obtain ⟨j1, j2, _⟩ := held_bytes h.holds hc
    have hf : (c.useSharedOf k).muts.filterMap vars.get = a :: l.filterMap vars.get := by
      rw [hl, List.filterMap_cons, i1]
    obtain ⟨r, w', T2, e1, e2, e3⟩ := h1.makeText (b := some (utf8 m)) (m := do
        let t ← retagShared a.tag a.lo a.hi false
        pure ⟨t, a.lo, a.hi⟩) (by
      rw [hf]
      refine runsR_left (runs_shared (usable_mut j2) (by omega)) fun t T3 _ c3 => ?_
      exact runsR_of_runs (runs_pure (Q := fun h T' => h = ⟨t, a.lo, a.hi⟩ ∧ Covers T' t a.lo a.hi) ⟨rfl, c3⟩) (by
        rintro _ T3 ⟨rfl, c3⟩
        exact ⟨j1, j2, c3⟩))
    refine ⟨g, T2, _, w', ?_, by simp only [Statement.see, i2, cut2_some.2 hc]; exact e3⟩
    simp only [perform, act, i1, Option.map_some, e1, e2, Statement.see, i2, cut2_some.2 hc]

theorem Core.takeText {f : Option Nat} {c' : Scope} (h : Core L caller arg top hN g T c vars x w)
    (hc : (c.useFrom f).map Scope.addText = some c') : Good L caller arg top hN (.text f) c' vars x w := by
  refine h.takes (b := some (utf8 x.text)) (m := Borrow.takeText) hc rfl rfl fun {B' _ _ P' _} hu => ?_
  have := runsR_takeText (ε := Failure) (L := L) (B := B') (P := P') hu hN h.shape
  rw [h.holds.asStr] at this
  exact this

theorem Core.takeBytes {f : Option Nat} {c' : Scope} (h : Core L caller arg top hN g T c vars x w)
    (hc : (c.useFrom f).map Scope.addText = some c') : Good L caller arg top hN (.bytes f) c' vars x w := by
  refine h.takes (b := some (utf8 x.text)) (m := Borrow.takeBytes) hc rfl rfl fun {B' _ _ P' _} hu => ?_
  have := runsR_takeBytes (ε := Failure) (L := L) (B := B') (P := P') hu hN h.shape
  rw [h.holds.asRefBytes] at this
  exact this

theorem Core.takeSlice {f : Option Nat} {c' : Scope} {i : IdxU8} (h : Core L caller arg top hN g T c vars x w)
    (hc : (c.useFrom f).map Scope.addText = some c') : Good L caller arg top hN (.slice f i) c' vars x w := by
  refine h.takes (b := (cut2 x.text (idxRange (byteLen x.text) i).1 (idxRange (byteLen x.text) i).2).map
    fun p => utf8 p.2.1) (m := fun t => Borrow.takeSlice t i) hc rfl rfl fun {B' _ _ P' _} hu => ?_
  have := runsR_takeSlice (ε := Failure) (L := L) (B := B') (P := P') (i := i) hu hN h.shape
  cases hq : cut2 x.text (idxRange (byteLen x.text) i).1 (idxRange (byteLen x.text) i).2 with
  | none => rw [Verif.index_panic h.holds (cut2_none.1 hq)] at this; exact this
  | some r =>
    obtain ⟨p, m, q⟩ := r
    rw [Verif.index_ok h.holds (cut2_some.1 hq)] at this
    exact this

/-! ## Mutable references -/

theorem State.sliced {A : Text R N} {P : Nat → List Tag} {r : Ref} {v : Tag} {lo hi : Nat}
    (h : State L (Slice L root [r] v lo hi) A T P w) :
    State L (Home L root (chain (useAll [r]) [⟨v, lo, hi⟩])) A T P w :=
  State.chained (g := [r]) (ms := []) (h := ⟨v, lo, hi⟩) (h.map fun l st _ hm => by
    unfold Home
    by_cases hl : lo ≤ l ∧ l < hi
    · rw [slice_in hl] at hm; rw [push_in hl]; exact hm
    · rw [slice_out hl] at hm; rw [push_out hl]; exact hm)

theorem Core.mutText (h : Core L caller arg top hN g T c vars x w) :
    Good L caller arg top hN .mutText c.useMut.addMut vars x w := by
  have h := h.useMut
  obtain ⟨u, t, w1, T1, e1, s1, g1, k1⟩ := (h.ready.state hN).asMutStr (ε := Failure) (root := caller)
    (caller := caller) (c := []) h.shape.2 (fun l st _ hm hb => L.main_two_root hm hb)
  have e2 : (plain (ArrayString.asMutStr id) : M (World R N) Failure Unit) w1 = (.ok (), w1) := by
    have hv : Str.validUtf8 (w.str.array.take w.str.len) = true := by
      rw [show w.str.array.take w.str.len = utf8 x.text from h.holds.2.2]; exact validUtf8_utf8 _
    unfold plain
    rw [s1, asMutStr_run h.shape, if_pos hv, if_pos ⟨rfl, hv⟩]
    simp only [id, List.take_append_drop]
    rw [← s1]
  have hl : w.str.len = byteLen x.text := by
    have := congrArg List.length h.holds.2.2
    rw [List.length_take, length_utf8] at this
    have := h.shape.1; have := h.shape.2
    have : w.str.len = w.str.size.toNat := rfl
    omega
  refine ⟨useAll [⟨t, .raw, false⟩], _, vars ++ [some ⟨u, 0, w.str.len⟩], w1, ?_,
    h.addMut (a := some ⟨u, 0, w.str.len⟩) rfl rfl s1 (protect_useAll (by simp)) g1.sliced
      (.inr ⟨_, .mut 0 (byteLen x.text), rfl, rfl, ?_, ?_, nofun⟩)⟩
  · simp only [perform, act, takeMut, bind_ok e1, bind_ok e2, Statement.see, Client.make]
    rfl
  · rw [hl]
  · simp only [hl]
    exact ⟨Nat.zero_le _, isBoundary_zero _, isBoundary_self _⟩

theorem Core.mutSlice {i : IdxU8} (h : Core L caller arg top hN g T c vars x w) :
    Good L caller arg top hN (.mutSlice i) c.useMut.addMut vars x w := by
  have h := h.useMut
  have hs := h.shape
  obtain ⟨w1, e1, s1, g1⟩ := (h.ready.state hN).fresh (ε := Failure) (lo := 0) (hi := N + 1) (f := R.twoPhase caller)
    (φ' := fun _ => L.Main caller [⟨w.next, .raw, false⟩]) (by omega)
    (fun l st _ _ hm hb => L.main_two_root hm hb) (fun l st _ _ => by omega)
  obtain ⟨w2, e2, s2, g2⟩ := g1.unique (ε := Failure) (lo := 0) (hi := N + 1) (t := w.next) (p := true)
    (φ' := fun _ => L.Main caller [⟨w1.next, .new, true⟩, ⟨w.next, .raw, false⟩]) (by omega)
    (fun l st _ _ hm hb => L.main_unique true hm hb) (fun l st _ _ => by omega)
  have s2 := s2.trans s1
  obtain ⟨w3, T3, s3, k3, g3⟩ := g2.indexMutOn (ε := Failure) (i := i) (by rw [s2]; exact hs)
  have s3 := s3.trans s2
  rw [s2] at g3
  have call : ∀ {r : Res Failure (Tag × Nat × Nat)} {w4 : World R N}, Settled r →
      (indexMutOn w1.next i : M _ Failure _) w2 = (r, w3) →
      (release w1.next 0 (N + 1) : M (World R N) Empty Unit) w3 = (.ok (), w4) →
      callMut caller (fun self => indexMutOn self i) w = (r, w4) := by
    intro r w4 hr e3 e4
    unfold callMut passUnique retagTwoPhase
    rw [bind_ok e1, bind_ok e2, protecting_run e3 hr e4]
  have hl : w.str.len = byteLen x.text := by
    have := congrArg List.length h.holds.2.2
    rw [List.length_take, length_utf8] at this
    have := h.shape.1; have := h.shape.2
    have : w.str.len = w.str.size.toNat := rfl
    omega
  rcases g3 with ⟨e3, hp, u, g3⟩ | ⟨v, a, b, e3, hy, g3, hr, t, ht⟩ | ⟨_, _, hv⟩
  case inr.inr =>
    have e : w.str.array.take w.str.len = utf8 x.text := h.holds.2.2
    rw [e, validUtf8_utf8] at hv
    cases hv
  · obtain ⟨w4, e4, s4, g4⟩ := g3.leave (ε := Empty)
    have g4 := (g4.hide (by simp)).using
    have hc : cut2 x.text (idxRange (byteLen x.text) i).1 (idxRange (byteLen x.text) i).2 = none := by
      cases hc : cut2 x.text (idxRange (byteLen x.text) i).1 (idxRange (byteLen x.text) i).2 with
      | none => rfl
      | some r =>
        obtain ⟨p, m, q⟩ := r
        have := hp id
        obtain ⟨s', hs', _⟩ := Verif.indexMut_ok (ε := Failure) (edit := id) h.holds (cut2_some.1 hc) rfl rfl
        rw [hs'] at this
        cases this
    refine ⟨[], _, vars ++ [none], w4, ?_,
      h.addMut rfl rfl (s4.trans s3) nofun g4.unused (.inl ⟨rfl, ?_⟩)⟩
    · have e : takeMutSlice caller i w = ((.panic : Res Failure Held), w4) := by
        unfold takeMutSlice
        show M.bind _ _ w = _
        rw [M.bind, call (r := .panic) ⟨nofun, nofun⟩ e3 e4]
      simp only [perform, act, e, Statement.see, Client.make, hc]
      rfl
    · simp only [hc]; rfl
  · obtain ⟨w4, e4, s4, g4⟩ := g3.leave (ε := Empty)
    have g4 := g4.hide (by simp)
    obtain ⟨u, w5, e5, s5, g5, _⟩ := g4.again (ε := Failure) (by omega)
    rw [hl, resolve_eq] at hr
    have hr := Option.some.inj hr
    rw [show w.str.array.take w.str.len = utf8 x.text from h.holds.2.2] at ht
    have hc : SliceOk x.text (a, b) := by
      refine Classical.byContradiction fun hn => ?_
      rw [index_str_panic hn] at ht
      cases ht
    obtain ⟨p, m, q, hc'⟩ := sliceOk_iff.1 hc
    refine ⟨useAll [⟨w.next, .raw, false⟩], _, vars ++ [some ⟨u, a, b⟩], w5, ?_,
      h.addMut (a := some ⟨u, a, b⟩) rfl rfl (s5.trans (s4.trans s3)) (protect_useAll (by simp)) g5.sliced
        (.inr ⟨_, .mut a b, rfl, ?_, rfl, hc, nofun⟩)⟩
    · simp only [perform, act, takeMutSlice, Statement.see, Client.make, hr, cut2_some.2 hc']
      rw [bind_ok (call settled_ok e3 e4), bind_ok e5]
      rfl
    · simp only [hr, cut2_some.2 hc']; rfl

/-- The newest mutable reference, after those made from it are gone. -/
theorem Core.newest {k : Nat} (h : Core L caller arg top hN g T c vars x w) (hk : k ∈ c.muts) :
    (vars.get k = none ∧ x.get k = none) ∨ ∃ a p m q l, vars.get k = some a ∧ x.get k = some (.mut a.lo a.hi) ∧
      SliceAt x.text (a.lo, a.hi) p m q ∧ (c.useMutOf k).muts.filterMap vars.get = a :: l := by
  rcases (h.muts k hk).2 with i | ⟨a, v, i1, i2, rfl, i3⟩
  · exact .inl i
  · obtain ⟨p, m, q, hc⟩ := sliceOk_iff.1 i3
    obtain ⟨l', hl'⟩ := dropWhile_mem hk
    refine .inr ⟨a, p, m, q, l'.filterMap vars.get, i1, i2, hc, ?_⟩
    unfold Scope.useMutOf
    rw [hl', List.filterMap_cons, i1]

theorem Core.mutPart {k a b : Nat} (h : Core L caller arg top hN g T c vars x w) (hk : k ∈ c.muts) :
    Good L caller arg top hN (.mutPart k a b) (c.useMutOf k).addMut vars x w := by
  have h1 := h.useMutOf hk
  rcases h.newest hk with ⟨i1, i2⟩ | ⟨d, p, m, q, l, i1, i2, hc, hf⟩
  · refine ⟨g, above N (above N T), vars ++ [none], w, ?_, ?_⟩
    · simp [perform, act, i1, Statement.see, i2, Client.miss]
    · simp only [Statement.see, i2]
      exact h1.addMut (a := none) rfl rfl rfl h1.ghost h1.state (.inl ⟨rfl, rfl⟩)
  · obtain ⟨j1, j2, _⟩ := held_bytes h.holds hc
    have hlo : d.lo ≤ d.hi := by
      have := hc.2.1; have := hc.2.2
      simp only [byteLen_append] at *
      omega
    have hd : d.lo + (d.hi - d.lo) = d.hi := by omega
    obtain ⟨r', w', T', e1, e2, e3, e4⟩ := h1.run (ε := Failure) (m := do
        readBoundary d.tag d.lo (d.hi - d.lo) a
        readBoundary d.tag d.lo (d.hi - d.lo) b
        let s ← get
        M.lift (Str.index (d.bytes s) a b)) (r := Str.index (d.bytes w.str) a b) (Z := fun x y _ => x = y) (by
      rw [hf]
      refine runsR_left (runs_readBoundary (by rw [hd]; exact usable_mut j2) (by omega)) fun _ T1 _ _ => ?_
      refine runsR_left (runs_readBoundary (by rw [hd]; exact usable_mut j2) (by omega)) fun _ T2 _ _ => ?_
      refine runsR_left runs_get fun s T3 _ e => ?_
      subst e
      exact runsR_lift) (by
      unfold Str.index
      split <;> exact ⟨nofun, nofun⟩)
    have hr := e3.eq
    have hp : takePart d a b w = (do
        let _ ← M.lift r'
        let v ← throughRaw d.tag d.lo d.hi (d.lo + a) (d.lo + b)
        pure ⟨v, d.lo + a, d.lo + b⟩ : M (World R N) Failure Held) w' := by
      have : takePart d a b w = ((do
        readBoundary d.tag d.lo (d.hi - d.lo) a
        readBoundary d.tag d.lo (d.hi - d.lo) b
        let s ← get
        M.lift (Str.index (d.bytes s) a b) : M (World R N) Failure Bytes) >>= fun _ => do
          let v ← throughRaw d.tag d.lo d.hi (d.lo + a) (d.lo + b)
          pure ⟨v, d.lo + a, d.lo + b⟩) w := by
        rw [bind_assoc', bind_assoc', bind_assoc']
        rfl
      rw [this]
      show M.bind _ _ w = M.bind _ _ w'
      unfold M.bind
      rw [e1]
      cases r' <;> rfl
    rw [j1] at hr
    by_cases hm : SliceOk m (a, b)
    · obtain ⟨p', m', q', hm'⟩ := sliceOk_iff.1 hm
      have hr : r' = .ok (utf8 m') := by
        rw [hr]
        obtain ⟨f1, f2, f3⟩ := hm'
        subst f1
        simp only [byteLen_append] at f2 f3
        subst f2 f3
        exact index_str_ok
      subst hr
      obtain ⟨f1, f2⟩ := sliceOk_part hc hm
      obtain ⟨v, w2, e5, s5, g5⟩ := (e4.state).partRaw (ε := Failure) (t := d.tag) (lo := d.lo) (hi := d.hi)
        (lo' := d.lo + a) (hi' := d.lo + b) (by omega) f2 (by omega) (fun l h1 h2 => by
          rw [hf, chain, push_in ⟨h1, h2⟩]
          exact ⟨_, _, rfl, rfl⟩)
      refine ⟨useAll g, above N T', vars ++ [some ⟨v, d.lo + a, d.lo + b⟩], w2, ?_, ?_⟩
      · rw [bind_ok (m := M.lift (.ok (utf8 m'))) (w' := w') rfl, bind_ok e5] at hp
        simp only [perform, act, i1, Option.map_some, hp, Statement.see, i2, cut2_some.2 hc, cut2_some.2 hm', Client.make]
        rfl
      · simp only [Statement.see, i2, cut2_some.2 hc, cut2_some.2 hm', Client.make, Option.map_some]
        refine h1.addMut (a := some ⟨v, d.lo + a, d.lo + b⟩) rfl rfl (s5.trans e2) (protect_useAll h1.ghost)
          (State.chained g5) (.inr ⟨_, _, rfl, rfl, rfl, f1, fun b' hb' => ?_⟩)
        rw [hf] at hb'
        have hn := h1.nested
        rw [hf] at hn
        have hr : b'.lo ≤ d.lo ∧ d.hi ≤ b'.hi := by
          rcases List.mem_cons.1 hb' with rfl | hm
          · exact ⟨Nat.le_refl _, Nat.le_refl _⟩
          · exact (List.pairwise_cons.1 hn).1 b' hm
        simp only
        omega
    · have hr : r' = .panic := by rw [hr]; exact index_str_panic hm
      subst hr
      refine ⟨g, above N T', vars ++ [none], w', ?_, ?_⟩
      · simp only [perform, act, i1, Option.map_some, Statement.see, i2, cut2_some.2 hc, cut2_none.2 hm, Client.make]
        rw [hp]
        rfl
      · simp only [Statement.see, i2, cut2_some.2 hc, cut2_none.2 hm, Client.make]
        exact h1.addMut (a := none) rfl rfl e2 h1.ghost e4.state (.inl ⟨rfl, rfl⟩)

theorem Core.edit {k : Nat} {e : Edit} (h : Core L caller arg top hN g T c vars x w) (hk : k ∈ c.muts) :
    Good L caller arg top hN (.edit k e) (c.useMutOf k) vars x w := by
  have h1 := h.useMutOf hk
  rcases h.newest hk with ⟨i1, i2⟩ | ⟨d, p, m, q, l, i1, i2, hc, hf⟩
  · refine ⟨g, above N T, vars, w, ?_, ?_⟩
    · simp [perform, act, i1, Statement.see, i2]
    · simp only [Statement.see, i2]; exact h1
  · obtain ⟨j1, j2, _⟩ := held_bytes h.holds hc
    obtain ⟨r', w1, T1, e1, s1, e3, h2⟩ := h1.run (ε := Failure) (r := .ok ()) (Z := fun _ _ _ => True)
      (m := readAt d.tag d.lo d.hi)
      (runsR_of_runs (runs_read (by rw [hf]; exact usable_mut j2) (by omega)) fun _ _ h => h) settled_ok
    cases e3
    have g2 := h2.state
    rw [hf] at g2
    obtain ⟨w2, e2, s2, _, g3⟩ := g2.touch (ε := Failure) (lo := d.lo) (hi := d.hi) (f := R.write d.tag)
      (φ' := Home L caller (chain (useAll g) (d :: l))) (by omega)
      (fun l' st h1 h2 hm hb => by
        obtain ⟨st', q1, q2, q3⟩ := Top.write hm hb
        rw [useAll_chain] at q2
        refine ⟨st', ?_, q2, q3⟩
        rw [chain, push_in ⟨h1, h2⟩] at q1
        exact q1)
      (fun l' st _ _ hm => by
        have := Top.use hm
        rw [useAll_chain] at this
        exact this)
    have hs2 : Holds w2.str x.text := by rw [s2, s1]; exact h.holds
    obtain ⟨s', e4, hs'⟩ := editBytes_run (ε := Failure) (e := e) hs2 hc
    refine ⟨useAll g, above N T1, vars, { w2 with str := s' }, ?_, ?_⟩
    · simp only [perform, act, i1, Option.map_some, editHeld, bind_ok e1, Statement.see, i2, cut2_some.2 hc, Prod.mk.injEq]
      rw [bind_ok (m := writeAt d.tag d.lo d.hi) e2, bind_ok (m := plain (editBytes d e.onBytes)) (w := w2)
        (a := ()) (w' := { w2 with str := s' }) (by unfold plain; rw [e4])]
      exact ⟨rfl, trivial, rfl⟩
    · simp only [Statement.see, i2, cut2_some.2 hc]
      refine core_of_state hs' h.count h.count' (protect_useAll h.ghost) (fun hn => ?_) ?_ h1.nested fun k' hk' => ?_
      · have : (c.useMutOf k).muts = [] := hn
        rw [this] at hf; cases hf
      · have : State L (Home L caller (chain (useAll g) ((c.useMutOf k).muts.filterMap vars.get))) (argText R arg top hN)
          T1 (fun _ => []) w2 := by rw [hf]; exact g3
        exact this.put s'
      · have hb := h1.muts k' hk'
        refine ⟨hb.1, hb.2.imp id ?_⟩
        rintro ⟨b, v, u1, u2, u3, u4⟩
        refine ⟨b, v, u1, u2, u3, ?_⟩
        have hmem : b ∈ (c.useMutOf k).muts.filterMap vars.get := List.mem_filterMap.2 ⟨k', hk', u1⟩
        have hn := h1.nested
        rw [hf] at hmem hn
        have hr : b.lo ≤ d.lo ∧ d.hi ≤ b.hi := by
          rcases List.mem_cons.1 hmem with rfl | hm
          · exact ⟨Nat.le_refl _, Nat.le_refl _⟩
          · exact (List.pairwise_cons.1 hn).1 b hm
        have u4 := u4
        rw [hc.1] at u4
        exact sliceOk_swap (e.keeps m) (by rw [hc.2.1]; exact hr.1) (by rw [hc.2.2]; exact hr.2) u4

theorem Core.step [ValidCapacity N] {p : Statement} {c' : Scope} (h : Core L caller arg top hN g T c vars x w)
    (hp : p.check c = some c') (hok : p.Ok) (ht : ∀ t ∈ stmtTexts p, N + 1 + byteLen t ≤ top) :
    Good L caller arg top hN p c' vars x w := by
  cases p with
  | call op => cases hp; exact h.call hok (by simpa [stmtTexts] using ht)
  | share => cases hp; exact h.share
  | ask k op =>
    simp only [Statement.check] at hp
    split at hp
    next hk => cases hp; exact h.ask hok (by simpa [stmtTexts] using ht) hk.1 hk.2
    next => cases hp
  | text f => exact h.takeText hp
  | bytes f => exact h.takeBytes hp
  | slice f i => exact h.takeSlice hp
  | read k =>
    simp only [Statement.check] at hp
    split at hp
    next hk => cases hp; exact h.read hk
    next => cases hp
  | mutText => cases hp; exact h.mutText
  | mutSlice i => cases hp; exact h.mutSlice
  | mutPart k a b =>
    simp only [Statement.check] at hp
    split at hp
    next hk => cases hp; exact h.mutPart hk
    next => cases hp
  | edit k e =>
    simp only [Statement.check] at hp
    split at hp
    next hk => cases hp; exact h.edit hk
    next => cases hp
  | peek k =>
    simp only [Statement.check] at hp
    split at hp
    next hk => cases hp; exact h.peek hk
    next => cases hp

theorem Core.steps [ValidCapacity N] {ps : List Statement} (h : Core L caller arg top hN g T c vars x w)
    (hp : Accepted c ps) (hok : ∀ p ∈ ps, p.Ok) (ht : ∀ p ∈ ps, ∀ t ∈ stmtTexts p, N + 1 + byteLen t ≤ top) :
    ∃ vars' w', performAll caller arg ps vars w = ((seeAll N ps x).1.map (Option.map Answer.toRes), vars', w') ∧
      Holds w'.str (seeAll N ps x).2.text ∧ Ready L caller arg top w' := by
  induction ps generalizing c vars x w g T with
  | nil => exact ⟨vars, w, rfl, h.holds, h.ready⟩
  | cons p ps ih =>
    unfold Accepted at hp
    split at hp
    next c' hc =>
      obtain ⟨g1, T1, vars1, w1, e1, h1⟩ := h.step hc (hok p List.mem_cons_self) (ht p List.mem_cons_self)
      obtain ⟨vars2, w2, e2, h2⟩ := ih h1 hp (fun p h => hok p (List.mem_cons_of_mem _ h))
        (fun p h => ht p (List.mem_cons_of_mem _ h))
      exact ⟨vars2, w2, by simp only [performAll, e1, e2, seeAll]; rfl, h2⟩
    next => cases hp

theorem seen?_toRes (a : Option Answer) : seen? (a.map Answer.toRes) = some a := by
  cases a with
  | none => rfl
  | some a => cases a <;> rfl

theorem Core.play [ValidCapacity N] {f : Plan} {n : Nat} {seen : List (Option Answer)}
    (h : Core L caller arg top hN g T c vars x w) (hp : f.Accepted n seen c) (hok : ∀ seen p, f seen = some p → p.Ok)
    (ht : ∀ p ∈ f.trace N n seen x, ∀ t ∈ stmtTexts p, N + 1 + byteLen t ≤ top) :
    ∃ vars' w', Borrow.play caller arg f n seen vars w =
        ((seeAll N (f.trace N n seen x) x).1.map (Option.map Answer.toRes), vars', w') ∧
      Holds w'.str (seeAll N (f.trace N n seen x) x).2.text ∧ Ready L caller arg top w' := by
  induction n generalizing seen c vars x w g T with
  | zero => exact ⟨vars, w, rfl, h.holds, h.ready⟩
  | succ n ih =>
    unfold Plan.Accepted at hp
    cases hf : f seen with
    | none => simp only [Borrow.play, Plan.trace, hf]; exact ⟨vars, w, rfl, h.holds, h.ready⟩
    | some p =>
      simp only [hf] at hp
      simp only [Plan.trace, hf] at ht ⊢
      split at hp
      next c' hc =>
        obtain ⟨g1, T1, vars1, w1, e1, h1⟩ := h.step hc (hok _ p hf) (ht p List.mem_cons_self)
        obtain ⟨vars2, w2, e2, h2⟩ := ih h1 (hp _) (fun p h => ht p (List.mem_cons_of_mem _ h))
        exact ⟨vars2, w2, by simp only [Borrow.play, hf, e1, seen?_toRes, e2, seeAll]; rfl, h2⟩
      next => cases hp

end Verif.Borrow
