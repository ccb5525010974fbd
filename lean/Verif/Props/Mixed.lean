import Verif.Proofs.Mixed

/-! # Programs with strings of several capacities and `CacheString`s -/

namespace Verif
open Spec ArrayString

variable {ty : Nat → VarType} {ε α : Type}

/-- Every variable holds its text. -/
def MixedStore (x : Vars ty) (cs : Nat → List Char) : Prop := ∀ i, HoldsVal (x i) (cs i)

theorem MixedStore.assign {x : Vars ty} {cs : Nat → List Char} (h : MixedStore x cs) (i : Nat) {v : Val (ty i)}
    {w : List Char} (hv : HoldsVal v w) : MixedStore (x.assign i v) (assignVar cs i w) := by
  intro k
  by_cases hk : k = i
  · subst hk
    simp only [Vars.assign_same, assignVar, if_true]
    exact hv
  · rw [Vars.assign_ne hk, assignVar_ne hk]
    exact h k

theorem MixedStore.texts {x : Vars ty} {cs : Nat → List Char} (h : MixedStore x cs) (js : List Nat) :
    (x.texts js : Res ε _) = .ok (js.map cs) := by
  induction js with
  | nil => rfl
  | cons j js ih => simp [Vars.texts, (h j).asStr, ih]

theorem MixedStore.call {x : Vars ty} {cs : Nat → List Char} (hty : ∀ i, ValidType (ty i)) (h : MixedStore x cs)
    (i : Nat) (op : Op) (hop : op.Ok) :
    (Vars.on i (Val.exec op) x).1 = (callVar ty cs i op).1.toRes ∧
    MixedStore (Vars.on i (Val.exec op) x).2 (callVar ty cs i op).2 := by
  obtain ⟨h1, h2⟩ := (h i).exec (hty i) op hop
  exact ⟨h1, h.assign i h2⟩

theorem Vars.on_err {i : Nat} {m : M (Val (ty i)) ε α} {x : Vars ty} {e : ε} (h : m (x i) = (.err e, x i)) :
    Vars.on i m x = (.err e, x) := by
  simp only [Vars.on, h, Vars.assign_self]

/-- C64: one statement does to the variables what the specification says, whatever the capacities. -/
theorem C64_statement (hty : ∀ i, ValidType (ty i)) (t : MixedStmt ty) (ht : t.Ok) (x : Vars ty)
    (cs : Nat → List Char) (h : MixedStore x cs) :
    (execMixed t x).1 = (mixed cs t).1.toRes ∧ MixedStore (execMixed t x).2 (mixed cs t).2 := by
  cases t with
  | call i op => exact h.call hty i op ht
  | use i js f =>
    have e : execMixed (.use i js f) x = Vars.on i (Val.exec (f (js.map cs))) x := by
      simp only [execMixed, M.bind_apply, M.self_apply, M.lift_apply, h.texts]
    rw [e]
    exact h.call hty i _ (ht _)
  | copy i j e =>
    refine ⟨rfl, h.assign j ?_⟩
    rw [HoldsVal.clone]
    exact (h i).cast e
  | eq i j e =>
    simp only [execMixed, M.bind_apply, M.self_apply, M.lift_apply, ((h i).cast e).eq (hty j) (h j)]
    exact ⟨rfl, h⟩
  | cmp i j e =>
    simp only [execMixed, M.bind_apply, M.self_apply, M.lift_apply, ((h i).cast e).cmp (hty j) (h j)]
    exact ⟨rfl, h⟩
  | print i j =>
    have e : execMixed (.print i j) x =
        (do Vars.on j (M.mapErr Kind.kind (Val.sink.writeStr (utf8 (cs i)))); pure .unit : M (Vars ty) Failure Out) x := by
      simp only [execMixed, M.bind_apply, M.self_apply, Fmt.write, (h i).display]
      have : ∀ (m : M (Val (ty j)) FmtError Unit), (do m; pure () : M _ FmtError Unit) = m := by
        intro m; funext v; simp only [M.bind_apply]; rcases m v with ⟨r, v'⟩; cases r <;> rfl
      rw [this]
    rw [e]
    simp only [mixed]
    split
    next hf =>
      obtain ⟨v', e', hv⟩ := (h j).write_ok (w' := cs i) (hty j) (by simpa using hf)
      simp only [M.bind_apply, Vars.on, M.mapErr_apply, e', Res.mapErr_ok]
      exact ⟨rfl, h.assign j hv⟩
    next hf =>
      have e' := (h j).write_err (w' := cs i) (hty j) (by simp at hf; omega)
      have : Vars.on j (M.mapErr Kind.kind (Val.sink.writeStr (utf8 (cs i)))) x = (.err (Kind.kind (ε := FmtError) {}), x) :=
        Vars.on_err (by simp [e'])
      simp only [M.bind_apply, this]
      exact ⟨rfl, h⟩
  | splitOff i at_ j e =>
    obtain ⟨h1, h2, h3⟩ := (h i).splitOff (hty i) at_
    have hx : ∀ er : Error, Val.splitOff at_ (x i) = (.err er, x i) →
        execMixed (.splitOff i at_ j e) x = (.err (Kind.kind er), x) := by
      intro er he
      have : Vars.on i (M.mapErr Kind.kind (Val.splitOff at_)) x = (.err (Kind.kind er), x) := Vars.on_err (by simp [he])
      simp only [execMixed, M.bind_apply, this]
    simp only [mixed]
    split
    next hl =>
      rw [hx _ (h1 hl)]
      exact ⟨rfl, h⟩
    next hl =>
      split
      next p q hc =>
        obtain ⟨v1, v2, e', hv1, hv2⟩ := h3 p q hc
        simp only [execMixed, M.bind_apply, Vars.on, M.mapErr_apply, e', Res.mapErr_ok, Vars.set]
        exact ⟨rfl, (h.assign i hv1).assign j (hv2.cast e)⟩
      next hc =>
        rw [hx _ (h2 (by omega) hc)]
        exact ⟨rfl, h⟩
  | drain i r j =>
    obtain ⟨h1, h2, h3⟩ := (h i).drain (hty i) r
    have hx : ∀ er : Error, Val.drain r (x i) = (.err er, x i) →
        execMixed (.drain i r j) x = (.err (Kind.kind er), x) := by
      intro er he
      have : Vars.on i (M.mapErr Kind.kind (Val.drain r)) x = (.err (Kind.kind er), x) := Vars.on_err (by simp [he])
      simp only [execMixed, M.bind_apply, this]
    simp only [mixed]
    split
    next hi =>
      split
      next p m q hc =>
        obtain ⟨v1, d, e', hv1, hd⟩ := h3 p m q hc
        haveI := (hty i).valid
        obtain ⟨v2, d', e2, hv2⟩ := HoldsVal.collect (ε := Failure) (hty j) m d hd
        simp only [execMixed, M.bind_apply, Vars.on, M.mapErr_apply, e', Res.mapErr_ok, Vars.set, M.lift_apply, e2]
        exact ⟨rfl, (h.assign i hv1).assign j hv2⟩
      next hc =>
        rw [hx _ (h2 hi hc)]
        exact ⟨rfl, h⟩
    next hi =>
      rw [hx _ (h1 hi)]
      exact ⟨rfl, h⟩
  | wrap i j hi hj =>
    refine ⟨rfl, h.assign j (HoldsVal.cast hj.symm ?_)⟩
    have key : ∀ {t : VarType} (e : t = .array 63) (v : Val t) (w : List Char), HoldsVal v w →
        Holds (N := 63) (_root_.cast (congrArg Val e) v : ArrayString 63) w := by
      intro t e v w hv; subst e; exact hv
    exact key hi _ _ (h i)
  | unwrap i j hi hj =>
    refine ⟨rfl, h.assign j (HoldsVal.cast hj.symm ?_)⟩
    have key : ∀ {t : VarType} (e : t = .cache) (v : Val t) (w : List Char), HoldsVal v w →
        Holds (N := 63) (_root_.cast (congrArg Val e) v : CacheString).deref w := by
      intro t e v w hv; subst e; exact hv
    exact key hi _ _ (h i)

/-- C64: any program with `ArrayString`s of any capacities and `CacheString`s behaves as the same program on
plain texts, each bounded by the capacity of its variable. -/
theorem C64_refinement (hty : ∀ i, ValidType (ty i)) (ts : List (MixedStmt ty)) (hts : ∀ t ∈ ts, t.Ok) (x : Vars ty)
    (cs : Nat → List Char) (h : MixedStore x cs) :
    (runMixed ts x).1 = (mixeds ts cs).1.map Answer.toRes ∧ MixedStore (runMixed ts x).2 (mixeds ts cs).2 := by
  induction ts generalizing x cs with
  | nil => exact ⟨rfl, h⟩
  | cons t ts ih =>
    obtain ⟨h1, h2⟩ := C64_statement hty t (hts t (List.mem_cons_self ..)) x cs h
    obtain ⟨h3, h4⟩ := ih (fun o ho => hts o (List.mem_cons_of_mem _ ho)) _ _ h2
    simp only [runMixed, mixeds]
    exact ⟨by rw [List.map_cons, h1, h3], h4⟩

/-- C64: a statement leaves the variables it does not assign exactly as they were, stale bytes
included, whatever they contain and however it ends. -/
theorem C64_frame (t : MixedStmt ty) (x : Vars ty) (k : Nat) (hk : k ∉ t.writes) : (execMixed t x).2 k = x k := by
  have on_ne : ∀ {ε α : Type} (i : Nat) (m : M (Val (ty i)) ε α) (x : Vars ty), k ≠ i → (Vars.on i m x).2 k = x k :=
    fun i m x h => Vars.assign_ne h
  cases t with
  | call i op => exact on_ne _ _ _ (by simpa [MixedStmt.writes] using hk)
  | use i js f =>
    simp only [execMixed, M.bind_apply, M.self_apply, M.lift_apply]
    cases (x.texts js : Res Failure _) with
    | ok ws => exact on_ne _ _ _ (by simpa [MixedStmt.writes] using hk)
    | _ => rfl
  | copy i j e => exact Vars.assign_ne (by simpa [MixedStmt.writes] using hk)
  | eq i j e =>
    simp only [execMixed, M.bind_apply, M.self_apply, M.lift_apply]
    cases (Val.eq (e ▸ x i) (x j) : Res Failure _) <;> rfl
  | cmp i j e =>
    simp only [execMixed, M.bind_apply, M.self_apply, M.lift_apply]
    cases (Val.cmp (e ▸ x i) (x j) : Res Failure _) <;> rfl
  | print i j =>
    simp only [execMixed, M.bind_apply, M.self_apply, Vars.on]
    rcases M.mapErr Kind.kind _ (x j) with ⟨r, v⟩
    cases r <;> exact Vars.assign_ne (by simpa [MixedStmt.writes] using hk)
  | splitOff i at_ j e =>
    simp [MixedStmt.writes] at hk
    simp only [execMixed, M.bind_apply, Vars.on]
    rcases M.mapErr Kind.kind (Val.splitOff at_) (x i) with ⟨r, v⟩
    cases r with
    | ok t => exact (Vars.assign_ne hk.2).trans (Vars.assign_ne hk.1)
    | _ => exact Vars.assign_ne hk.1
  | drain i r j =>
    simp [MixedStmt.writes] at hk
    simp only [execMixed, M.bind_apply, Vars.on]
    rcases M.mapErr Kind.kind (Val.drain r) (x i) with ⟨r, v⟩
    cases r with
    | ok d =>
      simp only [M.lift_apply]
      cases (Val.collect drainIter d : Res Failure (Val (ty j) × _)) with
      | ok t => exact (Vars.assign_ne hk.2).trans (Vars.assign_ne hk.1)
      | _ => exact Vars.assign_ne hk.1
    | _ => exact Vars.assign_ne hk.1
  | wrap i j hi hj => exact Vars.assign_ne (by simpa [MixedStmt.writes] using hk)
  | unwrap i j hi hj => exact Vars.assign_ne (by simpa [MixedStmt.writes] using hk)

/-- C64: a variable that a program never assigns is exactly what it was. -/
theorem C64_untouched (ts : List (MixedStmt ty)) (k : Nat) (hk : ∀ t ∈ ts, k ∉ t.writes) (x : Vars ty) :
    (runMixed ts x).2 k = x k := by
  induction ts generalizing x with
  | nil => rfl
  | cons t ts ih =>
    simp only [runMixed]
    rw [ih (fun t ht => hk t (List.mem_cons_of_mem _ ht)), C64_frame t x k (hk t (List.mem_cons_self ..))]

/-- C64: what a statement answers and assigns depends only on the texts of the variables it names as
read: between two states with equal texts there, every variable either keeps its text in both or gets
the same text in both. -/
theorem C64_depends (hty : ∀ i, ValidType (ty i)) (t : MixedStmt ty) (ht : t.Ok) (x y : Vars ty) (cs ds : Nat → List Char)
    (hx : MixedStore x cs) (hy : MixedStore y ds) (he : ∀ k ∈ t.reads, cs k = ds k) :
    (execMixed t x).1 = (execMixed t y).1 ∧
    ∃ cs' ds', MixedStore (execMixed t x).2 cs' ∧ MixedStore (execMixed t y).2 ds' ∧
      ∀ k, cs' k = ds' k ∨ cs' k = cs k ∧ ds' k = ds k := by
  obtain ⟨a1, a2⟩ := C64_statement hty t ht x cs hx
  obtain ⟨b1, b2⟩ := C64_statement hty t ht y ds hy
  have both : ∀ {i : Nat} {w : List Char} (k : Nat), assignVar cs i w k = assignVar ds i w k ∨
      assignVar cs i w k = cs k ∧ assignVar ds i w k = ds k := by
    intro i w k; unfold assignVar; split <;> simp
  have both2 : ∀ {i j : Nat} {w u : List Char} (k : Nat),
      assignVar (assignVar cs i w) j u k = assignVar (assignVar ds i w) j u k ∨
      assignVar (assignVar cs i w) j u k = cs k ∧ assignVar (assignVar ds i w) j u k = ds k := by
    intro i j w u k
    unfold assignVar
    split
    · simp
    · split <;> simp
  have key : (mixed cs t).1 = (mixed ds t).1 ∧
      ∀ k, (mixed cs t).2 k = (mixed ds t).2 k ∨ (mixed cs t).2 k = cs k ∧ (mixed ds t).2 k = ds k := by
    cases t with
    | call i op =>
      have e := he i (by simp [MixedStmt.reads])
      simp only [mixed, callVar, e]
      exact ⟨by trivial, both⟩
    | use i js f =>
      have e := he i (by simp [MixedStmt.reads])
      have ej : js.map cs = js.map ds := List.map_congr_left fun j hj => he j (by simp [MixedStmt.reads, hj])
      simp only [mixed, callVar, e, ej]
      exact ⟨by trivial, both⟩
    | copy i j _ | wrap i j _ _ | unwrap i j _ _ =>
      have e := he i (by simp [MixedStmt.reads])
      simp only [mixed, e]
      exact ⟨by trivial, both⟩
    | eq i j _ | cmp i j _ =>
      have e := he i (by simp [MixedStmt.reads])
      have e' := he j (by simp [MixedStmt.reads])
      simp only [mixed, e, e']
      exact ⟨by trivial, fun k => .inr ⟨by trivial, by trivial⟩⟩
    | print i j =>
      have e := he i (by simp [MixedStmt.reads])
      have e' := he j (by simp [MixedStmt.reads])
      simp only [mixed, e, e']
      split
      · exact ⟨by trivial, both⟩
      · exact ⟨by trivial, fun k => .inr ⟨by trivial, by trivial⟩⟩
    | splitOff i at_ j _ =>
      have e := he i (by simp [MixedStmt.reads])
      simp only [mixed, e]
      split
      · exact ⟨by trivial, fun k => .inr ⟨by trivial, by trivial⟩⟩
      · split
        · exact ⟨by trivial, both2⟩
        · exact ⟨by trivial, fun k => .inr ⟨by trivial, by trivial⟩⟩
    | drain i r j =>
      have e := he i (by simp [MixedStmt.reads])
      simp only [mixed, e]
      split
      · split
        · exact ⟨by trivial, both2⟩
        · exact ⟨by trivial, fun k => .inr ⟨by trivial, by trivial⟩⟩
      · exact ⟨by trivial, fun k => .inr ⟨by trivial, by trivial⟩⟩
  exact ⟨by rw [a1, b1, key.1], _, _, a2, b2, key.2⟩

/-- C64: a text goes through any chain of variables that all have room for it and comes back unchanged:
`y = T::try_from_str(&x)?; z = U::try_from_str(&y)?; …` -/
theorem C64_round_trip (hty : ∀ i, ValidType (ty i)) (i : Nat) (js : List Nat) (x : Vars ty) (cs : Nat → List Char)
    (h : MixedStore x cs) (hroom : ∀ j ∈ js, byteLen (cs i) ≤ (ty j).capacity) :
    let chain := (i :: js).zipWith (fun a b => MixedStmt.use (ty := ty) b [a] fun ws => .tryFromStr ws.flatten) js
    (runMixed chain x).1 = js.map (fun _ => .ok .unit) ∧ ∀ j ∈ js, HoldsVal ((runMixed chain x).2 j) (cs i) := by
  intro chain
  have hok : ∀ t ∈ chain, t.Ok := by
    intro t ht
    obtain ⟨a, b, -, -, rfl⟩ : ∃ a b, a ∈ i :: js ∧ b ∈ js ∧ MixedStmt.use b [a] (fun ws => .tryFromStr ws.flatten) = t := by
      obtain ⟨n, hn⟩ := List.mem_iff_getElem?.1 ht
      simp only [chain, List.getElem?_zipWith] at hn
      revert hn
      cases ha : (i :: js)[n]? with
      | none => simp
      | some a =>
        cases hb : js[n]? with
        | none => simp
        | some b =>
          intro hn
          exact ⟨a, b, List.mem_of_getElem? ha, List.mem_of_getElem? hb, by simpa using hn⟩
    exact fun _ => trivial
  obtain ⟨h1, h2⟩ := C64_refinement hty chain hok x cs h
  have key : ∀ (js : List Nat) (a : Nat) (cs : Nat → List Char) (w : List Char), cs a = w →
      (∀ j ∈ js, byteLen w ≤ (ty j).capacity) →
      (mixeds ((a :: js).zipWith (fun a b => MixedStmt.use (ty := ty) b [a] fun ws => .tryFromStr ws.flatten) js) cs).1 =
        js.map (fun _ => .returned .unit) ∧
      ∀ k, (k ∈ js ∨ cs k = w) →
        (mixeds ((a :: js).zipWith (fun a b => MixedStmt.use (ty := ty) b [a] fun ws => .tryFromStr ws.flatten) js) cs).2 k = w := by
    intro js
    induction js with
    | nil => intro a cs w _ _; exact ⟨rfl, fun k hk => by simpa [mixeds] using hk⟩
    | cons j js ih =>
      intro a cs w ha hr
      have e : mixed cs (MixedStmt.use (ty := ty) j [a] fun ws => .tryFromStr ws.flatten) =
          (.returned .unit, assignVar cs j w) := by
        have := hr j (List.mem_cons_self ..)
        simp [mixed, callVar, step, ha, this]
      obtain ⟨i1, i2⟩ := ih j (assignVar cs j w) w (by simp [assignVar]) fun k hk => hr k (List.mem_cons_of_mem _ hk)
      simp only [List.zipWith_cons_cons, mixeds, e]
      refine ⟨by rw [i1]; rfl, fun k hk => i2 k ?_⟩
      by_cases hkj : k = j
      · right; simp [assignVar, hkj]
      · rcases hk with hk | hk
        · exact .inl (by simpa [hkj] using hk)
        · exact .inr (by rw [assignVar_ne hkj]; exact hk)
  obtain ⟨k1, k2⟩ := key js i cs (cs i) rfl hroom
  refine ⟨by rw [h1, k1]; simp [Answer.toRes], fun j hj => ?_⟩
  have := h2 j
  rwa [k2 j (.inl hj)] at this

/-! A program with strings of capacities 4, 8 and 2, and a `CacheString`. -/

/-- Types of the variables of the example. -/
def mixedTypes : Nat → VarType
  | 0 => .array 4
  | 1 => .array 8
  | 2 => .cache
  | 3 => .array 63
  | _ => .array 2

theorem mixedTypes_valid (i : Nat) : ValidType (mixedTypes i) := by
  unfold mixedTypes
  split <;> first | trivial | exact ⟨by decide⟩

/-- `new`. -/
def emptyVal : (t : VarType) → Val t
  | .array n => (ArrayString.new : ArrayString n)
  | .cache => CacheString.new

/-- All variables empty. -/
def mixedEmpty : Vars mixedTypes := fun i => emptyVal (mixedTypes i)

theorem mixedEmpty_holds : MixedStore mixedEmpty fun _ => [] := by
  intro i
  show HoldsVal (emptyVal (mixedTypes i)) []
  cases mixedTypes i with
  | array n => exact holds_new (N := n)
  | cache => exact holds_new (N := 63)

example : (mixeds (ty := mixedTypes) [.call 1 (.tryPushStr ['h', 'é', 'l', 'l', 'o']),
      .use 0 [1] (fun ws => .tryFromStr ws.flatten),              -- 6 bytes do not fit in 4
      .use 0 [1] (fun ws => .fromStrTruncate ws.flatten),
      .call 0 .asStr,
      .print 1 2, .print 0 2, .print 2 4,                          -- nor 10 in 2
      .drain 2 (.range 1 5) 4,                                     -- collected into 2 bytes
      .call 4 .asStr, .call 2 .asStr,
      .unwrap 2 3 rfl rfl, .use 3 [4, 0] (fun ws => .extendStrs (ws.map some)), .wrap 3 2 rfl rfl, .eq 0 0 rfl,
      .use 1 [2] (fun ws => .eqStr ws.flatten), .call 2 .asStr] fun _ => []).1 =
    [.returned .unit, .failed .outOfBounds, .returned .unit, .returned (.str (utf8 ['h', 'é', 'l'])),
     .returned .unit, .returned .unit, .failed .fmt, .returned .unit, .returned (.str (utf8 ['é'])),
     .returned (.str (utf8 ['h', 'o', 'h', 'é', 'l'])), .returned .unit, .returned .unit, .returned .unit,
     .returned (.bool true), .returned (.bool false),
     .returned (.str (utf8 ['h', 'o', 'h', 'é', 'l', 'é', 'h', 'é', 'l']))] := by decide

example : (0 : Nat) ∉ (MixedStmt.drain (ty := mixedTypes) 2 (.range 1 5) 4).writes ∧
    (0 : Nat) ∉ (MixedStmt.drain (ty := mixedTypes) 2 (.range 1 5) 4).reads := by decide

example : ∀ j ∈ [0, 2, 1], byteLen ['h', 'é'] ≤ (mixedTypes j).capacity := by decide

end Verif
