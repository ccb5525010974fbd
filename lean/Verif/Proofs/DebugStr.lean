import Verif.Model.DebugStr
import Verif.Spec.DebugStr
import Verif.Proofs.CoreStr
import Verif.Proofs.Core

/-! # `Debug` of `str` and `u8` against the texts they print -/

namespace Verif
open Spec

variable {ω ε : Type} {N : Nat}

namespace Printing

theorem assoc {α β γ : Type} {m : M ω ε α} {f : α → M ω ε β} {g : β → M ω ε γ} :
    (m >>= f) >>= g = m >>= fun a => f a >>= g := by
  funext s
  simp only [M.bind_apply]
  rcases m s with ⟨r, s'⟩
  cases r <;> rfl

theorem bind_pure_unit {m : M ω ε Unit} : (m >>= fun _ => pure ()) = m := by
  funext s
  simp only [M.bind_apply]
  rcases m s with ⟨r, s'⟩
  cases r <;> rfl

theorem lift_ok {α β : Type} {a : α} {f : α → M ω ε β} : (M.lift (.ok a) >>= f) = f a := rfl

theorem writeTexts_app (sk : Sink ω) (a b : List (List Char)) :
    writeTexts sk (a ++ b) = writeTexts sk a >>= fun _ => writeTexts sk b := by
  induction a with
  | nil => rfl
  | cons w a ih =>
    show (sk.writeStr (utf8 w) >>= fun _ => writeTexts sk (a ++ b)) =
      (sk.writeStr (utf8 w) >>= fun _ => writeTexts sk a) >>= fun _ => writeTexts sk b
    rw [ih, assoc]

/-- `m` writes the text `t`, cut up in some way, whatever the sink is. -/
def Writes (m : ∀ ω : Type, Sink ω → M ω FmtError Unit) (t : List Char) : Prop :=
  ∃ ws : List (List Char), ws.flatten = t ∧ ∀ (ω : Type) (sk : Sink ω), m ω sk = writeTexts sk ws

theorem writes_nil : Writes (fun _ _ => pure ()) [] := ⟨[], rfl, fun _ _ => rfl⟩

theorem writes_text {b : Bytes} {t : List Char} (h : b = utf8 t) : Writes (fun _ sk => sk.writeStr b) t :=
  ⟨[t], by simp, fun _ sk => by subst h; exact bind_pure_unit.symm⟩

theorem writes_char (c : Char) : Writes (fun _ sk => Fmt.writeChar sk c) [c] :=
  writes_text (by simp [Str.encodeUtf8])

theorem writes_then {m m' : ∀ ω : Type, Sink ω → M ω FmtError Unit} {t t' : List Char} (h : Writes m t)
    (h' : Writes m' t') : Writes (fun ω sk => m ω sk >>= fun _ => m' ω sk) (t ++ t') := by
  obtain ⟨ws, e, h⟩ := h
  obtain ⟨ws', e', h'⟩ := h'
  refine ⟨ws ++ ws', by simp [e, e'], fun ω sk => ?_⟩
  rw [writeTexts_app, ← h, ← h']

theorem writes_eq {m : ∀ ω : Type, Sink ω → M ω FmtError Unit} {t t' : List Char} (h : Writes m t) (e : t = t') :
    Writes m t' := e ▸ h

theorem writes_fill (c : Char) (n : Nat) : Writes (fun _ sk => Fmt.writeFill sk c n) (List.replicate n c) := by
  induction n with
  | zero => exact writes_nil
  | succ n ih =>
    refine writes_eq (writes_then (writes_char c) ih) ?_
    simp [List.replicate_succ]

/-! ## `PadAdapter` -/

/-- The lines of a text. -/
def textLines : List Char → List (List Char)
  | [] => []
  | c :: cs =>
    if c = '\n' then [c] :: textLines cs
    else match textLines cs with
      | [] => [[c]]
      | l :: ls => (c :: l) :: ls

theorem lines_pass {a : Bytes} (ha : ∀ x ∈ a, x ≠ 10) (h0 : a ≠ []) (b : Bytes) :
    Fmt.lines (a ++ b) = match Fmt.lines b with
      | [] => [a]
      | l :: ls => (a ++ l) :: ls := by
  induction a with
  | nil => exact absurd rfl h0
  | cons x a ih =>
    rw [List.cons_append, Fmt.lines, if_neg (ha x (List.mem_cons_self ..))]
    by_cases h : a = []
    · subst h; rw [List.nil_append]; cases Fmt.lines b <;> rfl
    · rw [ih (fun y hy => ha y (List.mem_cons_of_mem _ hy)) h]
      cases Fmt.lines b <;> rfl

theorem encode_no_lf {c : Char} (h : c ≠ '\n') : ∀ x ∈ String.utf8EncodeChar c, x ≠ 10 := by
  have hv : c.toNat ≠ 10 := fun e => h (Char.toNat_inj.1 e)
  have hr := toNat_range c
  unfold String.utf8EncodeChar
  simp only [show c.val.toNat = c.toNat from rfl]
  generalize c.toNat = v at *
  intro x hx e
  subst e
  split at hx
  · rw [List.mem_singleton] at hx
    have := congrArg UInt8.toNat hx
    simp [UInt8.toNat_ofNat'] at this
    omega
  split at hx
  · simp only [List.mem_cons, List.not_mem_nil, or_false] at hx
    rcases hx with hx | hx <;> have := congrArg UInt8.toNat hx <;> simp [UInt8.toNat_ofNat'] at this <;> omega
  split at hx
  · simp only [List.mem_cons, List.not_mem_nil, or_false] at hx
    rcases hx with hx | hx | hx <;> have := congrArg UInt8.toNat hx <;> simp [UInt8.toNat_ofNat'] at this <;> omega
  · simp only [List.mem_cons, List.not_mem_nil, or_false] at hx
    rcases hx with hx | hx | hx | hx <;> have := congrArg UInt8.toNat hx <;> simp [UInt8.toNat_ofNat'] at this <;> omega

theorem encode_ne_nil (c : Char) : String.utf8EncodeChar c ≠ [] := by
  intro h
  have := utf8Size_pos c
  rw [← length_encode, h] at this
  simp at this

theorem lines_utf8 (cs : List Char) : Fmt.lines (utf8 cs) = (textLines cs).map utf8 := by
  induction cs with
  | nil => rfl
  | cons c cs ih =>
    rw [utf8_cons, textLines]
    by_cases h : c = '\n'
    · subst h
      rw [if_pos rfl, show String.utf8EncodeChar '\n' = [10] from by decide]
      simp only [List.cons_append, List.nil_append, Fmt.lines, if_true, ih, List.map_cons]
      rfl
    · rw [if_neg h, lines_pass (encode_no_lf h) (encode_ne_nil c), ih]
      cases textLines cs <;> simp

theorem last_lf (l : List Char) : ((utf8 l).getLast? == some 10) = (l.getLast? == some '\n') := by
  rcases List.eq_nil_or_concat l with rfl | ⟨l, c, rfl⟩
  · rfl
  · rw [List.concat_eq_append, utf8_append]
    simp only [utf8_cons, utf8_nil, List.append_nil, List.getLast?_append, List.getLast?_singleton, Option.some_or]
    by_cases h : c = '\n'
    · subst h
      rw [show String.utf8EncodeChar '\n' = [10] from by decide]
      simp
    · rcases List.eq_nil_or_concat (String.utf8EncodeChar c) with e | ⟨b, x, e⟩
      · exact absurd e (encode_ne_nil c)
      · have hx := encode_no_lf h x (by rw [e]; simp)
        rw [e, List.concat_eq_append]
        simp only [List.getLast?_append, List.getLast?_singleton, Option.some_or]
        rw [Bool.eq_iff_iff]
        simp [h, hx]

/-- The texts written to the wrapped sink for lines, and whether a line begins after them. -/
def padList (st : Bool) : List (List Char) → List (List Char) × Bool
  | [] => ([], st)
  | l :: ls =>
    let r := padList (l.getLast? == some '\n') ls
    ((if st then [[' ', ' ', ' ', ' ']] else []) ++ l :: r.1, r.2)

/-- A call of the wrapped sink. -/
def inner (m : M ω FmtError Unit) : M (ω × Bool) FmtError Unit := fun p => ((m p.1).1, ((m p.1).2, p.2))

theorem onSink_then (m : M ω FmtError Unit) (f : M (ω × Bool) FmtError Unit) (w : ω) (st : Bool) :
    (inner m >>= fun _ => f) (w, st) = match m w with
      | (.ok _, w') => f (w', st)
      | (.err e, w') => (.err e, (w', st))
      | (.panic, w') => (.panic, (w', st))
      | (.ub, w') => (.ub, (w', st))
      | (.diverge, w') => (.diverge, (w', st)) := by
  simp only [M.bind_apply, inner]
  rcases m w with ⟨r, w'⟩
  cases r <;> rfl

theorem padLines_false (sk : Sink ω) (l : Bytes) (ls : List Bytes) (w : ω) :
    Fmt.padLines sk (l :: ls) (w, false) =
      (inner (sk.writeStr l) >>= fun _ => Fmt.padLines sk ls) (w, l.getLast? == some 10) := rfl

theorem padLines_true (sk : Sink ω) (l : Bytes) (ls : List Bytes) (w : ω) :
    Fmt.padLines sk (l :: ls) (w, true) =
      (inner (sk.writeStr [32, 32, 32, 32]) >>= fun _ => show M (ω × Bool) FmtError Unit from fun (p : ω × Bool) =>
        (inner (sk.writeStr l) >>= fun _ => Fmt.padLines sk ls) (p.1, l.getLast? == some 10)) (w, true) := rfl

theorem padLines_run (sk : Sink ω) (ls : List (List Char)) (w : ω) (st : Bool) :
    (Fmt.padLines sk (ls.map utf8) (w, st)).1 = (writeTexts sk (padList st ls).1 w).1 ∧
    (Fmt.padLines sk (ls.map utf8) (w, st)).2.1 = (writeTexts sk (padList st ls).1 w).2 ∧
    ((writeTexts sk (padList st ls).1 w).1 = .ok () →
      (Fmt.padLines sk (ls.map utf8) (w, st)).2.2 = (padList st ls).2) := by
  induction ls generalizing w st with
  | nil => exact ⟨rfl, rfl, fun _ => rfl⟩
  | cons l ls ih =>
    have hlf := last_lf l
    have hsp : utf8 [' ', ' ', ' ', ' '] = [32, 32, 32, 32] := by decide
    cases st with
    | false =>
      rw [List.map_cons, padLines_false, onSink_then, hlf]
      simp only [padList, Bool.false_eq_true, if_false, List.nil_append, writeTexts, M.bind_apply]
      rcases hw : sk.writeStr (utf8 l) w with ⟨r, w'⟩
      cases r with
      | ok u => exact ih w' _
      | _ => simp
    | true =>
      rw [List.map_cons, padLines_true, onSink_then, hlf]
      simp only [padList, if_true, List.cons_append, List.nil_append, writeTexts, hsp]
      rw [M.bind_apply]
      rcases hw : sk.writeStr [32, 32, 32, 32] w with ⟨r, w'⟩
      cases r with
      | ok u =>
        simp only
        rw [onSink_then, M.bind_apply]
        rcases hw' : sk.writeStr (utf8 l) w' with ⟨r, w''⟩
        cases r with
        | ok u => exact ih w'' _
        | _ => simp
      | _ => simp

/-- The texts written to the wrapped sink for texts written to the adapter. -/
def padAll (st : Bool) : List (List Char) → List (List Char)
  | [] => []
  | w :: ws => (padList st (textLines w)).1 ++ padAll (padList st (textLines w)).2 ws

theorem padAll_run (sk : Sink ω) (ws : List (List Char)) (w : ω) (st : Bool) :
    (writeTexts (Fmt.padAdapter sk) ws (w, st)).1 = (writeTexts sk (padAll st ws) w).1 ∧
    (writeTexts (Fmt.padAdapter sk) ws (w, st)).2.1 = (writeTexts sk (padAll st ws) w).2 := by
  induction ws generalizing w st with
  | nil => exact ⟨rfl, rfl⟩
  | cons t ws ih =>
    have h := padLines_run sk (textLines t) w st
    rw [padAll, writeTexts_app]
    simp only [writeTexts, M.bind_apply, Fmt.padAdapter, lines_utf8]
    rcases h0 : writeTexts sk (padList st (textLines t)).1 w with ⟨r, w'⟩
    rcases h1 : Fmt.padLines sk ((textLines t).map utf8) (w, st) with ⟨r1, w1, st1⟩
    rw [h0, h1] at h
    obtain ⟨rfl, rfl, h⟩ := h
    cases r1 with
    | ok u => have := h rfl; simp only at this; subst this; exact ih _ _
    | _ => simp

theorem textLines_flatten (cs : List Char) : (textLines cs).flatten = cs := by
  induction cs with
  | nil => rfl
  | cons c cs ih =>
    rw [textLines]
    split
    · simp [ih]
    · cases h : textLines cs with
      | nil => rw [h] at ih; simp at ih; simp [← ih]
      | cons l ls => rw [h] at ih; simpa using ih

/-- Does a line begin after the text? -/
def begins (st : Bool) (t : List Char) : Bool := if t = [] then st else t.getLast? == some '\n'

theorem begins_append (st : Bool) (a b : List Char) : begins st (a ++ b) = begins (begins st a) b := by
  unfold begins
  rcases List.eq_nil_or_concat b with rfl | ⟨b, x, rfl⟩
  · simp
  · rw [List.concat_eq_append, ← List.append_assoc]; simp

theorem indentText_append (st : Bool) (a b : List Char) :
    indentText st (a ++ b) = indentText st a ++ indentText (begins st a) b := by
  induction a generalizing st with
  | nil => simp [indentText, begins]
  | cons x a ih =>
    have : begins st (x :: a) = begins (x == '\n') a := by
      cases a <;> simp [begins]
    simp [indentText, ih, this]

/-- A line: no line feed but maybe at the end. -/
def Line (l : List Char) : Prop := l ≠ [] ∧ ∀ a b, l = a ++ '\n' :: b → b = []

theorem textLines_line (cs : List Char) : ∀ l ∈ textLines cs, Line l := by
  induction cs with
  | nil => simp [textLines]
  | cons c cs ih =>
    rw [textLines]
    split
    · next h =>
      subst h
      intro l hl
      rcases List.mem_cons.1 hl with rfl | hl
      · refine ⟨by simp, fun a b e => ?_⟩
        cases a <;> simp_all
      · exact ih l hl
    · next h =>
      split
      · intro l hl
        rw [List.mem_singleton.1 hl]
        refine ⟨by simp, fun a b e => ?_⟩
        cases a <;> simp_all
      · next l0 ls h0 =>
        intro l hl
        rw [h0] at ih
        rcases List.mem_cons.1 hl with rfl | hl
        · have := ih l0 (List.mem_cons_self ..)
          refine ⟨by simp, fun a b e => ?_⟩
          cases a with
          | nil => simp_all
          | cons y a => simp at e; exact this.2 a b e.2
        · exact ih l (List.mem_cons_of_mem _ hl)

theorem indentText_false {b : List Char} (h : ∀ a c, b = a ++ '\n' :: c → c = []) : indentText false b = b := by
  induction b with
  | nil => rfl
  | cons x b ih =>
    by_cases hx : x = '\n'
    · subst hx
      have := h [] b rfl
      subst this; rfl
    · have hx' : (x == '\n') = false := by simp [hx]
      simp only [indentText, hx', ih (fun a c e => h (x :: a) c (by simp [e]))]
      simp

theorem indentText_line (st : Bool) {l : List Char} (h : Line l) :
    indentText st l = (if st then [' ', ' ', ' ', ' '] else []) ++ l := by
  cases l with
  | nil => exact absurd rfl h.1
  | cons x l =>
    have := indentText_false h.2
    simp only [indentText] at this ⊢
    simp at this
    rw [this]

theorem padList_text (ls : List (List Char)) (hl : ∀ l ∈ ls, Line l) (st : Bool) :
    (padList st ls).1.flatten = indentText st ls.flatten ∧ (padList st ls).2 = begins st ls.flatten := by
  induction ls generalizing st with
  | nil => exact ⟨rfl, rfl⟩
  | cons l ls ih =>
    have h0 := hl l (List.mem_cons_self ..)
    have hb : begins st l = (l.getLast? == some '\n') := by simp [begins, h0.1]
    have ih := ih (fun l h => hl l (List.mem_cons_of_mem _ h)) (l.getLast? == some '\n')
    simp only [padList, List.flatten_cons, indentText_append, begins_append, hb, ← ih.2, indentText_line st h0]
    refine ⟨?_, trivial⟩
    rw [← ih.1]
    cases st <;> simp

theorem padAll_text (ws : List (List Char)) (st : Bool) : (padAll st ws).flatten = indentText st ws.flatten := by
  induction ws generalizing st with
  | nil => rfl
  | cons w ws ih =>
    have h := padList_text (textLines w) (textLines_line w) st
    rw [textLines_flatten] at h
    rw [padAll, List.flatten_append, h.1, ih, h.2, List.flatten_cons, indentText_append]

theorem writes_padded {m : ∀ ω : Type, Sink ω → M ω FmtError Unit} {t : List Char} (h : Writes m t) :
    Writes (fun ω sk => Fmt.padded (m (ω × Bool) (Fmt.padAdapter sk))) (indentText true t) := by
  obtain ⟨ws, e, h⟩ := h
  refine ⟨padAll true ws, by rw [padAll_text, e], fun ω sk => ?_⟩
  funext w
  have := padAll_run sk ws w true
  simp only [Fmt.padded, h]
  exact Prod.ext this.1 this.2

/-! ## The builders -/

theorem writes_struct {o : FmtOpts} {name l1 l2 : Bytes} {nm t1 t2 v1 v2 : List Char} {d1 d2 : Fmt.Dbg}
    (hn : name = utf8 nm) (h1 : l1 = utf8 t1) (h2 : l2 = utf8 t2) (e1 : t1 ≠ []) (e2 : t2 ≠ [])
    (p1 : Prints d1 o v1) (p2 : Prints d2 o v2) :
    Writes (fun _ sk => Fmt.debugStruct sk o name [(l1, d1), (l2, d2)])
      (if o.alternate then
        nm ++ [' ', '{', '\n'] ++ indentText true (t1 ++ [':', ' '] ++ v1 ++ [',', '\n']) ++
          indentText true (t2 ++ [':', ' '] ++ v2 ++ [',', '\n']) ++ ['}']
      else nm ++ [' ', '{', ' '] ++ t1 ++ [':', ' '] ++ v1 ++ [',', ' '] ++ t2 ++ [':', ' '] ++ v2 ++ [' ', '}']) := by
  have p1 : Writes (fun _ sk => d1 sk o) v1 := p1
  have p2 : Writes (fun _ sk => d2 sk o) v2 := p2
  have n1 : l1.isEmpty = false := by rw [h1, isEmpty_utf8]; simpa using e1
  have n2 : l2.isEmpty = false := by rw [h2, isEmpty_utf8]; simpa using e2
  have colon : Writes (fun _ sk => sk.writeStr [58, 32]) [':', ' '] := writes_text (by decide)
  cases ha : o.alternate with
  | true =>
    simp only [Fmt.debugStruct, Fmt.debugFields, ha, n1, n2, if_true, Bool.false_eq_true, if_false]
    have comma : Writes (fun _ sk => sk.writeStr [44, 10]) [',', '\n'] := writes_text (by decide)
    refine writes_eq (writes_then (writes_text hn) (writes_then (writes_then
      (writes_text (t := [' ', '{', '\n']) (by decide))
      (writes_then (writes_padded (writes_then (writes_text h1) (writes_then colon (writes_then p1 comma))))
        (writes_then (writes_padded (writes_then (writes_text h2) (writes_then colon (writes_then p2 comma))))
          writes_nil))) (writes_text (t := ['}']) (by decide)))) ?_
    simp
  | false =>
    simp only [Fmt.debugStruct, Fmt.debugFields, ha, n1, n2, if_true, Bool.false_eq_true, if_false]
    refine writes_eq (writes_then (writes_text hn) (writes_then (writes_then
      (writes_text (t := [' ', '{', ' ']) (by decide))
      (writes_then (writes_text h1) (writes_then colon (writes_then p1
        (writes_then (writes_text (t := [',', ' ']) (by decide)) (writes_then (writes_text h2) (writes_then colon (writes_then p2
          writes_nil)))))))) (writes_text (t := [' ', '}']) (by decide)))) ?_
    simp

theorem writes_tuple {o : FmtOpts} {name : Bytes} {nm v : List Char} {d : Fmt.Dbg} (hn : name = utf8 nm)
    (p : Prints d o v) :
    Writes (fun _ sk => Fmt.debugTuple sk o name [d])
      (if o.alternate then nm ++ ['(', '\n'] ++ indentText true (v ++ [',', '\n']) ++ [')']
      else nm ++ ['('] ++ v ++ [')']) := by
  have p : Writes (fun _ sk => d sk o) v := p
  have e : ∀ (ω : Type) (sk : Sink ω), Fmt.debugTuple sk o name [d] = (do
      sk.writeStr name
      Fmt.debugFields sk o [40] true [([], d)]
      sk.writeStr [41]) := fun _ _ => rfl
  simp only [e]
  cases ha : o.alternate with
  | true =>
    simp only [Fmt.debugFields, ha, if_true, List.isEmpty_nil]
    refine writes_eq (writes_then (writes_text hn) (writes_then (writes_then
      (writes_text (t := ['(', '\n']) (by decide))
      (writes_then (writes_padded (writes_then p (writes_text (t := [',', '\n']) (by decide)))) writes_nil))
      (writes_text (t := [')']) (by decide)))) ?_
    simp
  | false =>
    simp only [Fmt.debugFields, ha, if_true, List.isEmpty_nil,
      Bool.false_eq_true, if_false]
    refine writes_eq (writes_then (writes_text hn) (writes_then (writes_then
      (writes_text (t := ['(']) (by decide)) (writes_then p writes_nil))
      (writes_text (t := [')']) (by decide)))) ?_
    simp

/-! ## Numbers -/

theorem decimalU8_eq : ∀ v < 256, Core.decimalU8 (UInt8.ofNat v) = utf8 (Nat.toDigits 10 v) := by
  decide +kernel
theorem hexU8_lower : ∀ v < 256, Core.hexU8 97 (UInt8.ofNat v) = utf8 (Nat.toDigits 16 v) := by
  decide +kernel
theorem hexU8_upper : ∀ v < 256, Core.hexU8 65 (UInt8.ofNat v) = utf8 ((Nat.toDigits 16 v).map Char.toUpper) := by
  decide +kernel

theorem lengths : ∀ v < 256, byteLen (Nat.toDigits 10 v) = (Nat.toDigits 10 v).length ∧
    byteLen (Nat.toDigits 16 v) = (Nat.toDigits 16 v).length ∧
    byteLen ((Nat.toDigits 16 v).map Char.toUpper) = (Nat.toDigits 16 v).length := by
  decide +kernel

theorem writes_prefix (o : FmtOpts) (pt : List Char) :
    Writes (fun _ sk => Core.writePrefix sk (if o.signPlus then some '+' else none)
        (if o.alternate then some (utf8 pt) else none))
      ((if o.signPlus then ['+'] else []) ++ (if o.alternate then pt else [])) := by
  cases o.signPlus <;> cases o.alternate
  · exact writes_nil
  · exact writes_text rfl
  · exact writes_eq (writes_then (writes_char '+') writes_nil) rfl
  · exact writes_then (writes_char '+') (writes_text rfl)

theorem writes_padIntegral (o : FmtOpts) (pt dt : List Char) (hl : byteLen dt = dt.length) :
    Writes (fun _ sk => Core.padIntegral sk o (utf8 pt) (utf8 dt))
      (padNumber o ((if o.signPlus then ['+'] else []) ++ (if o.alternate then pt else [])) dt) := by
  have hp := writes_prefix o pt
  have hd : Writes (fun _ sk => sk.writeStr (utf8 dt)) dt := writes_text rfl
  have hw : (utf8 dt).length + (if o.signPlus then 1 else 0) + (if o.alternate then (Str.chars (utf8 pt)).length else 0) =
      ((if o.signPlus then ['+'] else []) ++ (if o.alternate then pt else []) ++ dt).length := by
    rw [chars_utf8, length_utf8, hl]
    cases o.signPlus <;> cases o.alternate <;> simp <;> omega
  simp only [Core.padIntegral, hw, padNumber]
  generalize (if o.signPlus then ['+'] else []) ++ (if o.alternate then pt else []) = pre at *
  by_cases h0 : (pre ++ dt).length ≥ o.width.getD 0
  · simp only [if_pos h0]
    have hm : o.width.getD 0 - (pre ++ dt).length = 0 := by omega
    refine writes_eq (writes_then hp hd) ?_
    rw [hm]
    cases o.zeroPad
    · rcases o.align with _ | a
      · simp
      · cases a <;> simp
    · simp
  · simp only [if_neg h0]
    generalize o.width.getD 0 - (pre ++ dt).length = m
    cases o.zeroPad
    · simp only [Bool.false_eq_true, if_false]
      have h : ∀ x y, Writes (fun ω sk => (do
          Fmt.writeFill sk o.fill x
          Core.writePrefix sk (if o.signPlus then some '+' else none) (if o.alternate then some (utf8 pt) else none)
          sk.writeStr (utf8 dt)
          Fmt.writeFill sk o.fill y : M ω FmtError Unit))
          (List.replicate x o.fill ++ (pre ++ (dt ++ List.replicate y o.fill))) := fun x y =>
        writes_then (writes_fill _ x) (writes_then hp (writes_then hd (writes_fill _ y)))
      have hc : (m + 1) / 2 = m - m / 2 := by omega
      rcases o.align with _ | a
      · exact writes_eq (h m 0) (by simp)
      · cases a
        · exact writes_eq (h 0 m) (by simp)
        · exact writes_eq (h m 0) (by simp)
        · exact writes_eq (h (m / 2) ((m + 1) / 2)) (by simp [hc])
    · exact writes_eq (writes_then hp (writes_then (writes_fill '0' m) hd)) (by simp)

/-- `<u8 as Debug>::fmt`. -/
theorem prints_u8 (n : Nat) (hn : n < 256) (o : FmtOpts) :
    Prints (Core.debugU8 (UInt8.ofNat n)) o (numberText o n) := by
  obtain ⟨l1, l2, l3⟩ := lengths n hn
  show Writes (fun _ sk => Core.debugU8 (UInt8.ofNat n) sk o) _
  unfold Core.debugU8 numberText digits
  rw [decimalU8_eq n hn, hexU8_lower n hn, hexU8_upper n hn]
  have hx : ([48, 120] : Bytes) = utf8 ['0', 'x'] := by decide
  rcases hd : o.debugHex with _ | x
  · exact writes_eq (writes_padIntegral o [] _ l1) (by simp)
  · cases x
    · rw [hx]
      exact writes_eq (writes_padIntegral o ['0', 'x'] _ l2) (by simp)
    · rw [hx]
      exact writes_eq (writes_padIntegral o ['0', 'x'] _ (by rw [l3, List.length_map])) (by simp)

/-! ## Escapes -/

theorem hexDigit_eq (v : Nat) : [Core.hexDigit v] = utf8 [Nat.digitChar (v % 16)] := by
  have h : ∀ x < 16, [Core.hexDigits[x &&& 15]'(Nat.lt_of_le_of_lt Nat.and_le_right (by decide))] =
      utf8 [Nat.digitChar x] := by decide
  have e : v &&& 15 = v % 16 := Nat.and_two_pow_sub_one_eq_mod v 4
  have h := h (v % 16) (Nat.mod_lt _ (by decide))
  have e2 : v % 16 &&& 15 = v &&& 15 := by
    rw [e, show v % 16 &&& 15 = v % 16 % 16 from Nat.and_two_pow_sub_one_eq_mod (v % 16) 4]; omega
  rw [← h]
  unfold Core.hexDigit
  simp only [e2]

theorem hex_small {v : Nat} (h : v < 16) : utf8 (Nat.toDigits 16 v) = [Core.hexDigit v] := by
  rw [Nat.toDigits_of_lt_base h, hexDigit_eq, Nat.mod_eq_of_lt h]

theorem hex_large {v : Nat} (h : 16 ≤ v) :
    utf8 (Nat.toDigits 16 v) = utf8 (Nat.toDigits 16 (v / 16)) ++ [Core.hexDigit v] := by
  rw [Nat.toDigits_of_base_le (by decide) h, utf8_append, hexDigit_eq]

theorem start_eq {v j : Nat} (hj : j ≤ 5) (h0 : v ||| 1 ≠ 0) (h1 : j = 0 ∨ 2 ^ (4 * j) ≤ v) (h2 : v < 2 ^ (4 * j + 4)) :
    Core.leadingZeros (v ||| 1) / 4 - 2 = 5 - j := by
  have a : 4 * j ≤ (v ||| 1).log2 := by
    rcases h1 with rfl | h1
    · exact Nat.zero_le _
    · exact (Nat.le_log2 h0).2 (Nat.le_trans h1 Nat.left_le_or)
  have b : (v ||| 1).log2 < 4 * j + 4 :=
    (Nat.log2_lt h0).2 (Nat.or_lt_two_pow h2 (Nat.one_lt_two_pow (by omega)))
  unfold Core.leadingZeros
  omega

theorem escapeUnicode_eq (c : Char) :
    Core.escapeUnicode c = utf8 (['\\', 'u', '{'] ++ Nat.toDigits 16 c.toNat ++ ['}']) := by
  have hc : c.toNat < 0x110000 := by rcases toNat_range c with h | h <;> omega
  have h0 : c.toNat ||| 1 ≠ 0 := by
    have : 1 ≤ c.toNat ||| 1 := Nat.right_le_or
    omega
  have pre : utf8 ['\\', 'u', '{'] = [92, 117, 123] := by decide
  have post : utf8 ['}'] = [125] := by decide
  rw [utf8_append, utf8_append, pre, post]
  unfold Core.escapeUnicode
  dsimp only
  generalize c.toNat = v at *
  have e4 : v >>> 4 = v / 16 := Nat.shiftRight_eq_div_pow ..
  have e8 : v >>> 8 = v / 16 / 16 := by rw [Nat.shiftRight_eq_div_pow]; omega
  have e12 : v >>> 12 = v / 16 / 16 / 16 := by rw [Nat.shiftRight_eq_div_pow]; omega
  have e16 : v >>> 16 = v / 16 / 16 / 16 / 16 := by rw [Nat.shiftRight_eq_div_pow]; omega
  have e20 : v >>> 20 = v / 16 / 16 / 16 / 16 / 16 := by rw [Nat.shiftRight_eq_div_pow]; omega
  rw [e4, e8, e12, e16, e20]
  by_cases h1 : v < 16
  · rw [start_eq (j := 0) (by omega) h0 (Or.inl rfl) (by omega), hex_small h1]
    rfl
  rw [hex_large (by omega)]
  by_cases h2 : v < 256
  · rw [start_eq (j := 1) (by omega) h0 (Or.inr (by omega)) (by omega), hex_small (by omega)]
    rfl
  rw [hex_large (by omega)]
  by_cases h3 : v < 4096
  · rw [start_eq (j := 2) (by omega) h0 (Or.inr (by omega)) (by omega), hex_small (by omega)]
    rfl
  rw [hex_large (by omega)]
  by_cases h4 : v < 65536
  · rw [start_eq (j := 3) (by omega) h0 (Or.inr (by omega)) (by omega), hex_small (by omega)]
    rfl
  rw [hex_large (by omega)]
  by_cases h5 : v < 1048576
  · rw [start_eq (j := 4) (by omega) h0 (Or.inr (by omega)) (by omega), hex_small (by omega)]
    rfl
  rw [hex_large (by omega), start_eq (j := 5) (by omega) h0 (Or.inr (by omega)) (by omega), hex_small (by omega)]
  rfl

/-- The characters shown as they are. -/
def shown (t : Core.Tables) (c : Char) : Bool := t.printable c && !t.graphemeExtended c

/-- The characters that the loop runs over without looking at the tables. -/
def Skips (c : Char) : Prop := IsPlain c ∧ c ≠ '\\' ∧ c ≠ '"'

theorem escapeChar_skips {f : Char → Bool} {c : Char} (h : Skips c) : escapeChar f c = [c] := by
  obtain ⟨h, h1, h2⟩ := h
  unfold escapeChar
  rw [if_neg, if_neg, if_neg, if_neg, if_neg h1, if_neg h2, if_pos (Or.inl h)]
  all_goals
    rintro rfl
    revert h; decide

theorem escape_eq (t : Core.Tables) {c : Char} (h : ¬ Skips c) :
    (Core.escapeDebugExt t c = .char c ∧ escapeChar (shown t) c = [c]) ∨
    (Core.escapeDebugExt t c = .bytes (utf8 (escapeChar (shown t) c)) ∧ byteLen (escapeChar (shown t) c) ≠ 1) := by
  unfold Core.escapeDebugExt escapeChar
  by_cases h1 : c = '\x00'
  · simp only [if_pos h1]; right; decide
  by_cases h2 : c = '\t'
  · simp only [if_neg h1, if_pos h2]; right; decide
  by_cases h3 : c = '\r'
  · simp only [if_neg h1, if_neg h2, if_pos h3]; right; decide
  by_cases h4 : c = '\n'
  · simp only [if_neg h1, if_neg h2, if_neg h3, if_pos h4]; right; decide
  by_cases h5 : c = '\\'
  · simp only [if_neg h1, if_neg h2, if_neg h3, if_neg h4, if_pos h5]; right; decide
  by_cases h6 : c = '"'
  · simp only [if_neg h1, if_neg h2, if_neg h3, if_neg h4, if_neg h5, if_pos h6]; right; decide
  simp only [if_neg h1, if_neg h2, if_neg h3, if_neg h4, if_neg h5, if_neg h6]
  have hp : ¬ IsPlain c := fun hp => h ⟨hp, h5, h6⟩
  have big : byteLen (['\\', 'u', '{'] ++ Nat.toDigits 16 c.toNat ++ ['}']) ≠ 1 := by
    simp [Char.utf8Size]
  unfold shown
  by_cases hg : t.graphemeExtended c = true
  · right
    simp only [hg, if_true, hp, false_or, Bool.not_true, Bool.and_false, Bool.false_eq_true, if_false]
    exact ⟨by rw [escapeUnicode_eq], big⟩
  · by_cases hs : t.printable c = true
    · left
      simp [hg, hs]
    · right
      simp only [hg, hs, if_false, hp, false_or, Bool.false_and, Bool.false_eq_true]
      exact ⟨by rw [escapeUnicode_eq], big⟩

/-! ## The loop -/

theorem encode_skips {c : Char} (h : Skips c) :
    ∃ x, String.utf8EncodeChar c = [x] ∧ Core.needsEscape x = false := by
  obtain ⟨⟨h1, h2⟩, h3, h4⟩ := h
  have e3 : c.toNat ≠ 92 := fun e => h3 (Char.toNat_inj.1 e)
  have e4 : c.toNat ≠ 34 := fun e => h4 (Char.toNat_inj.1 e)
  unfold String.utf8EncodeChar
  simp only [show c.val.toNat = c.toNat from rfl]
  generalize c.toNat = v at *
  rw [if_pos (by omega)]
  refine ⟨_, rfl, ?_⟩
  have hm : v % 256 = v := by omega
  simp only [Core.needsEscape, Bool.or_eq_false_iff, decide_eq_false_iff_not, gt_iff_lt, UInt8.lt_iff_toNat_lt,
    beq_eq_false_iff_ne, ne_eq, ← UInt8.toNat_inj, UInt8.toNat_ofNat', hm]
  simp
  omega

theorem encode_stops {c : Char} (h : ¬ Skips c) :
    ∃ x tl, String.utf8EncodeChar c = x :: tl ∧ Core.needsEscape x = true := by
  have h' : ¬ (0x20 ≤ c.toNat ∧ c.toNat ≤ 0x7E) ∨ c.toNat = 92 ∨ c.toNat = 34 := by
    by_cases hp : IsPlain c
    · right
      by_cases h3 : c = '\\'
      · left; subst h3; rfl
      · by_cases h4 : c = '"'
        · right; subst h4; rfl
        · exact absurd ⟨hp, h3, h4⟩ h
    · exact Or.inl hp
  have hr := toNat_range c
  have hx : ∀ x : UInt8, 126 < x.toNat ∨ x.toNat < 32 ∨ x.toNat = 92 ∨ x.toNat = 34 → Core.needsEscape x = true := by
    intro x hx
    simp only [Core.needsEscape, Bool.or_eq_true, decide_eq_true_eq, gt_iff_lt, UInt8.lt_iff_toNat_lt, beq_iff_eq,
      ← UInt8.toNat_inj]
    simp
    omega
  unfold String.utf8EncodeChar
  simp only [show c.val.toNat = c.toNat from rfl]
  generalize c.toNat = v at *
  split
  · exact ⟨_, _, rfl, hx _ (by simp only [UInt8.toNat_ofNat']; omega)⟩
  split
  · exact ⟨_, _, rfl, hx _ (by simp only [UInt8.toNat_ofNat']; omega)⟩
  split
  · exact ⟨_, _, rfl, hx _ (by simp only [UInt8.toNat_ofNat']; omega)⟩
  · exact ⟨_, _, rfl, hx _ (by simp only [UInt8.toNat_ofNat']; omega)⟩

theorem find_eq (cs : List Char) :
    ((utf8 cs).findIdx? Core.needsEscape = none ∧ ∀ c ∈ cs, Skips c) ∨
    ∃ a c b, cs = a ++ c :: b ∧ (∀ c ∈ a, Skips c) ∧ ¬ Skips c ∧
      (utf8 cs).findIdx? Core.needsEscape = some (byteLen a) := by
  induction cs with
  | nil => left; simp
  | cons c cs ih =>
    by_cases h : Skips c
    · obtain ⟨x, ex, hx⟩ := encode_skips h
      have hsz : c.utf8Size = 1 := by rw [← length_encode, ex]; rfl
      rcases ih with ⟨hn, hall⟩ | ⟨a, d, b, rfl, ha, hd, hf⟩
      · left
        refine ⟨?_, ?_⟩
        · rw [utf8_cons, ex, List.singleton_append, List.findIdx?_cons, hn]; simp [hx]
        · intro y hy
          rcases List.mem_cons.1 hy with rfl | hy
          · exact h
          · exact hall y hy
      · right
        refine ⟨c :: a, d, b, rfl, ?_, hd, ?_⟩
        · intro y hy
          rcases List.mem_cons.1 hy with rfl | hy
          · exact h
          · exact ha y hy
        · rw [utf8_cons, ex, List.singleton_append, List.findIdx?_cons, hf]; simp [hx, hsz]; omega
    · obtain ⟨x, tl, ex, hx⟩ := encode_stops h
      right
      refine ⟨[], c, cs, rfl, by simp, h, ?_⟩
      rw [utf8_cons, ex, List.cons_append, List.findIdx?_cons]
      simp [hx]

theorem index_utf8 (p q r : List Char) :
    (Str.index (utf8 (p ++ q ++ r)) (byteLen p) (byteLen (p ++ q)) : Res ε Bytes) = .ok (utf8 q) := by
  unfold Str.index Str.get?
  rw [if_pos ⟨by simp, (isCharBoundary_utf8 _ _).2 ⟨p, q ++ r, by simp, rfl⟩,
    (isCharBoundary_utf8 _ _).2 ⟨p ++ q, r, rfl, rfl⟩⟩]
  rw [List.append_assoc, utf8_append, List.drop_left' (by simp), utf8_append, List.take_left' (by simp)]

theorem getUnchecked_utf8 (a r : List Char) :
    (Str.getUnchecked (utf8 (a ++ r)) (byteLen a) (utf8 (a ++ r)).length : Res ε Bytes) = .ok (utf8 r) := by
  unfold Str.getUnchecked
  rw [if_pos ⟨by simp, Nat.le_refl _, (isCharBoundary_utf8 _ _).2 ⟨a, r, by simp, rfl⟩,
    (isCharBoundary_utf8 _ _).2 ⟨a ++ r, [], by simp, by simp⟩⟩]
  rw [utf8_append, List.drop_left' (by simp), List.take_of_length_le (by simp)]

/-- The loop writes what has to be escaped and what is before it, and leaves a rest to be written as it is. -/
theorem loop_writes (t : Core.Tables) (cs : List Char) (hM : byteLen cs ≤ usizeMax) :
    ∀ (fuel : Nat) (p q r : List Char), cs = p ++ q ++ r → (∀ c ∈ q, escapeChar (shown t) c = [c]) →
      byteLen r < fuel →
      ∃ (ws : List (List Char)) (p' q' : List Char), cs = p' ++ q' ∧
        ws.flatten ++ q' = q ++ r.flatMap (escapeChar (shown t)) ∧
        ∀ (ω : Type) (sk : Sink ω),
          Core.debugStrLoop t sk (utf8 cs) fuel (utf8 r) (byteLen p) (byteLen (p ++ q)) =
            writeTexts sk ws >>= fun _ => pure (byteLen p', byteLen cs) := by
  intro fuel
  induction fuel with
  | zero => intro p q r _ _ h; omega
  | succ fuel ih =>
    intro p q r hcs hq hf
    by_cases hr : r = []
    · subst hr
      refine ⟨[], p, q, by simpa using hcs, by simp, fun ω sk => ?_⟩
      rw [Core.debugStrLoop, if_neg (by simp)]
      rw [show cs = p ++ q by simpa using hcs]
      rfl
    · have hpos : (utf8 r).length > 0 := by
        rw [length_utf8]
        have : byteLen r ≠ 0 := fun h => hr (byteLen_eq_zero.1 h)
        omega
      have hM' : byteLen p + byteLen q + byteLen r ≤ usizeMax := by
        rw [hcs] at hM; simpa [Nat.add_assoc] using hM
      rcases find_eq r with ⟨hn, hall⟩ | ⟨a, c, b, rfl, ha, hc, hsome⟩
      · have hesc : r.flatMap (escapeChar (shown t)) = r := by
          clear hn hcs hf hr hpos hM'
          induction r with
          | nil => rfl
          | cons c r ihr =>
            rw [List.flatMap_cons, escapeChar_skips (hall c (List.mem_cons_self ..)),
              ihr (fun y hy => hall y (List.mem_cons_of_mem _ hy))]
            rfl
        refine ⟨[], p, q ++ r, by simp [hcs], by simp [hesc], fun ω sk => ?_⟩
        rw [Core.debugStrLoop, if_pos hpos, hn]
        simp only
        rw [addUsize_ok (by simp; omega)]
        rw [show byteLen cs = byteLen (p ++ q) + (utf8 r).length by simp [hcs, Nat.add_assoc]]
        rfl
      · have hesc : a.flatMap (escapeChar (shown t)) = a := by
          clear hsome hcs hf hr hpos hM'
          induction a with
          | nil => rfl
          | cons c r ihr =>
            rw [List.flatMap_cons, escapeChar_skips (ha c (List.mem_cons_self ..)),
              ihr (fun y hy => ha y (List.mem_cons_of_mem _ hy))]
            rfl
        have hqa : ∀ c ∈ q ++ a, escapeChar (shown t) c = [c] := by
          intro y hy
          rcases List.mem_append.1 hy with hy | hy
          · exact hq y hy
          · exact escapeChar_skips (ha y hy)
        have hsz := utf8Size_pos c
        simp only [byteLen_append, byteLen_cons] at hf hM'
        have step : ∀ (ω : Type) (sk : Sink ω),
            Core.debugStrLoop t sk (utf8 cs) (fuel + 1) (utf8 (a ++ c :: b)) (byteLen p) (byteLen (p ++ q)) =
              (Core.debugStrChar t sk (utf8 cs) c (byteLen p) (byteLen (p ++ (q ++ a))) >>= fun st =>
                Core.debugStrLoop t sk (utf8 cs) fuel (utf8 b) st.1 st.2) := by
          intro ω sk
          rw [Core.debugStrLoop, if_pos hpos, hsome]
          simp only
          rw [addUsize_ok (by simp; omega), lift_ok, getUnchecked_utf8, lift_ok, utf8_cons, core_charsNext, lift_ok]
          simp only [byteLen_append, Nat.add_assoc]
        rcases escape_eq t hc with ⟨e1, e2⟩ | ⟨e1, e2⟩
        · obtain ⟨ws, p', q', h1, h2, h3⟩ := ih p (q ++ a ++ [c]) b (by simp [hcs])
            (by
              intro y hy
              rcases List.mem_append.1 hy with hy | hy
              · exact hqa y hy
              · rw [List.mem_singleton.1 hy]; exact e2)
            (by omega)
          refine ⟨ws, p', q', h1, ?_, fun ω sk => ?_⟩
          · rw [h2]; simp [hesc, e2]
          · rw [step, ← h3]
            unfold Core.debugStrChar
            simp only [e1, core_lenUtf8]
            rw [addUsize_ok (by simp; omega), lift_ok]
            simp only [Core.EscapeDebug.len, ne_eq, not_true_eq_false, if_false, byteLen_append, byteLen_cons,
              byteLen_nil, Nat.add_zero, Nat.add_assoc]
            rfl
        · obtain ⟨ws, p', q', h1, h2, h3⟩ := ih (p ++ (q ++ a) ++ [c]) [] b (by simp [hcs]) (by simp) (by omega)
          refine ⟨(q ++ a) :: escapeChar (shown t) c :: ws, p', q', h1, ?_, fun ω sk => ?_⟩
          · simp only [List.nil_append] at h2
            simp [hesc, h2]
          · rw [step]
            unfold Core.debugStrChar
            simp only [e1, core_lenUtf8]
            rw [addUsize_ok (by simp; omega), lift_ok]
            rw [if_pos (by simpa [Core.EscapeDebug.len] using e2)]
            rw [hcs, show p ++ q ++ (a ++ c :: b) = p ++ (q ++ a) ++ (c :: b) by simp, index_utf8, lift_ok,
              show p ++ (q ++ a) ++ (c :: b) = cs by simp [hcs]]
            simp only [writeTexts, assoc, Core.EscapeDebug.display]
            have h3 := h3 ω sk
            simp only [List.append_nil, byteLen_append, byteLen_cons, byteLen_nil, Nat.add_zero, Nat.add_assoc] at h3 ⊢
            rw [← h3]
            rfl

/-- `<str as Debug>::fmt`. -/
theorem prints_str (t : Core.Tables) (cs : List Char) (hM : byteLen cs ≤ usizeMax) (o : FmtOpts) :
    Prints (Core.debugStr t (utf8 cs)) o (quoted (shown t) cs) := by
  obtain ⟨ws, p, q, hcs, hw, h⟩ := loop_writes t cs hM ((utf8 cs).length + 1) [] [] cs (by simp) (by simp) (by simp)
  have quote := writes_char '"'
  have mid : Writes (fun _ sk => writeTexts sk ws) ws.flatten := ⟨ws, rfl, fun _ _ => rfl⟩
  refine writes_eq (m := fun _ sk => Core.debugStr t (utf8 cs) sk o)
    (t := ['"'] ++ (ws.flatten ++ (q ++ ['"']))) ?_ ?_
  · have e : ∀ (ω : Type) (sk : Sink ω), Core.debugStr t (utf8 cs) sk o = (do
        Fmt.writeChar sk '"'
        writeTexts sk ws
        sk.writeStr (utf8 q)
        Fmt.writeChar sk '"') := by
      intro ω sk
      have h := h ω sk
      simp only [List.append_nil, byteLen_nil] at h
      unfold Core.debugStr
      simp only [h, assoc]
      have hi := index_utf8 (ε := FmtError) p q []
      rw [List.append_nil, ← hcs] at hi
      show (Fmt.writeChar sk '"' >>= fun _ => writeTexts sk ws >>= fun _ =>
        M.lift (Str.index (utf8 cs) (byteLen p) (byteLen cs)) >>= fun last => sk.writeStr last >>= fun _ =>
          Fmt.writeChar sk '"') = _
      rw [hi]
      rfl
    simp only [e]
    exact writes_then quote (writes_then mid (writes_then (writes_text rfl) quote))
  · rw [show ws.flatten ++ (q ++ ['"']) = ws.flatten ++ q ++ ['"'] by simp, hw]
    simp [quoted]

/-! ## Reading the output back -/

theorem digitChar_ne : ∀ d < 16, Nat.digitChar d ≠ '}' ∧ IsPlain (Nat.digitChar d) := by decide
theorem digitChar_inj : ∀ d < 16, ∀ e < 16, Nat.digitChar d = Nat.digitChar e → d = e := by decide

theorem hex_eq (n : Nat) : Nat.toDigits 16 n =
    if n < 16 then [Nat.digitChar n] else Nat.toDigits 16 (n / 16) ++ [Nat.digitChar (n % 16)] := by
  split
  · next h => exact Nat.toDigits_of_lt_base h
  · next h => exact Nat.toDigits_of_base_le (by decide) (by omega)

theorem hex_mem (n : Nat) : ∀ c ∈ Nat.toDigits 16 n, c ≠ '}' ∧ IsPlain c := by
  induction n using Nat.strongRecOn with
  | _ n ih =>
    intro c hc
    rw [hex_eq] at hc
    split at hc
    · next h => rw [List.mem_singleton.1 hc]; exact digitChar_ne n h
    · next h =>
      rcases List.mem_append.1 hc with hc | hc
      · exact ih (n / 16) (by omega) c hc
      · rw [List.mem_singleton.1 hc]; exact digitChar_ne _ (Nat.mod_lt _ (by decide))

theorem hex_inj {n m : Nat} (h : Nat.toDigits 16 n = Nat.toDigits 16 m) : n = m := by
  induction n using Nat.strongRecOn generalizing m with
  | _ n ih =>
    have hp : ∀ k, Nat.toDigits 16 k ≠ [] := fun k => Nat.toDigits_ne_nil
    rw [hex_eq n, hex_eq m] at h
    split at h <;> split at h
    · next h1 h2 => exact digitChar_inj n h1 m h2 (by simpa using h)
    · next h1 h2 =>
      have := congrArg List.length h
      have := List.length_pos_iff.2 (hp (m / 16))
      simp at *
    · next h1 h2 =>
      have := congrArg List.length h
      have := List.length_pos_iff.2 (hp (n / 16))
      simp at *
    · next h1 h2 =>
      obtain ⟨h3, h4⟩ := List.append_inj' h rfl
      have h3 := ih (n / 16) (by omega) h3
      have h4 := digitChar_inj _ (Nat.mod_lt n (by decide)) _ (Nat.mod_lt m (by decide)) (by simpa using h4)
      omega

/-- Texts without a closing brace before one. -/
theorem brace_inj {a b r r' : List Char} (ha : ∀ c ∈ a, c ≠ '}') (hb : ∀ c ∈ b, c ≠ '}')
    (h : a ++ '}' :: r = b ++ '}' :: r') : a = b ∧ r = r' := by
  induction a generalizing b with
  | nil =>
    cases b with
    | nil => simpa using h
    | cons y b => simp at h; exact absurd h.1.symm (hb y (List.mem_cons_self ..))
  | cons x a ih =>
    cases b with
    | nil => simp at h; exact absurd h.1 (ha x (List.mem_cons_self ..))
    | cons y b =>
      simp at h
      obtain ⟨rfl, h⟩ := h
      obtain ⟨rfl, h'⟩ := ih (fun c hc => ha c (List.mem_cons_of_mem _ hc)) (fun c hc => hb c (List.mem_cons_of_mem _ hc)) h
      exact ⟨rfl, h'⟩

/-- The character that a backslash and `k` stand for. -/
def unescape (k : Char) : Char :=
  if k = '0' then '\x00' else if k = 't' then '\t' else if k = 'r' then '\r' else if k = 'n' then '\n' else k

theorem escape_cases (f : Char → Bool) (c : Char) :
    (escapeChar f c = [c] ∧ c ≠ '\\' ∧ c ≠ '"' ∧ (IsPlain c ∨ f c)) ∨
    (∃ k, escapeChar f c = ['\\', k] ∧ k ≠ 'u' ∧ unescape k = c ∧ IsPlain k) ∨
    escapeChar f c = '\\' :: 'u' :: '{' :: (Nat.toDigits 16 c.toNat ++ ['}']) := by
  unfold escapeChar
  by_cases h1 : c = '\x00'
  · right; left; subst h1; exact ⟨'0', rfl, by decide⟩
  by_cases h2 : c = '\t'
  · right; left; subst h2; exact ⟨'t', rfl, by decide⟩
  by_cases h3 : c = '\r'
  · right; left; subst h3; exact ⟨'r', rfl, by decide⟩
  by_cases h4 : c = '\n'
  · right; left; subst h4; exact ⟨'n', rfl, by decide⟩
  by_cases h5 : c = '\\'
  · right; left; subst h5; exact ⟨'\\', rfl, by decide⟩
  by_cases h6 : c = '"'
  · right; left; subst h6; exact ⟨'"', rfl, by decide⟩
  rw [if_neg h1, if_neg h2, if_neg h3, if_neg h4, if_neg h5, if_neg h6]
  split
  · next h => exact Or.inl ⟨rfl, h5, h6, h⟩
  · right; right; simp

theorem escape_inj {f : Char → Bool} {c d : Char} {r r' : List Char}
    (h : escapeChar f c ++ r = escapeChar f d ++ r') : c = d ∧ r = r' := by
  rcases escape_cases f c with ⟨e, hc, -, -⟩ | ⟨k, e, hk, hu, -⟩ | e <;>
    rcases escape_cases f d with ⟨e', hd, -, -⟩ | ⟨k', e', hk', hu', -⟩ | e' <;> rw [e, e'] at h
  · simpa using h
  · simp at h; exact absurd h.1 hc
  · simp at h; exact absurd h.1 hc
  · simp at h; exact absurd h.1.symm hd
  · simp at h
    obtain ⟨rfl, h⟩ := h
    exact ⟨hu.symm.trans hu', h⟩
  · simp at h; exact absurd h.1 hk
  · simp at h; exact absurd h.1.symm hd
  · simp at h; exact absurd h.1.symm hk'
  · simp only [List.cons_append, List.append_assoc, List.nil_append, List.cons.injEq, true_and] at h
    obtain ⟨h1, h2⟩ := brace_inj (fun x hx => (hex_mem _ x hx).1) (fun x hx => (hex_mem _ x hx).1) h
    exact ⟨Char.toNat_inj.1 (hex_inj h1), h2⟩

theorem escape_no_quote {f : Char → Bool} {c : Char} {r r' : List Char} : escapeChar f c ++ r ≠ '"' :: r' := by
  intro h
  rcases escape_cases f c with ⟨e, -, hc, -⟩ | ⟨k, e, -, -⟩ | e <;> rw [e] at h <;> simp at h
  exact hc h.1

theorem quoted_inj {f : Char → Bool} {cs ds r r' : List Char} (h : quoted f cs ++ r = quoted f ds ++ r') :
    cs = ds ∧ r = r' := by
  replace h : cs.flatMap (escapeChar f) ++ '"' :: r = ds.flatMap (escapeChar f) ++ '"' :: r' := by
    simpa [quoted] using h
  induction cs generalizing ds with
  | nil =>
    cases ds with
    | nil => simpa using h
    | cons d ds => rw [List.flatMap_cons, List.append_assoc] at h; exact absurd h.symm escape_no_quote
  | cons c cs ih =>
    cases ds with
    | nil => rw [List.flatMap_cons, List.append_assoc] at h; exact absurd h escape_no_quote
    | cons d ds =>
      rw [List.flatMap_cons, List.flatMap_cons, List.append_assoc, List.append_assoc] at h
      obtain ⟨rfl, h'⟩ := escape_inj h
      obtain ⟨rfl, h''⟩ := ih h'
      exact ⟨rfl, h''⟩

theorem escape_mem {f : Char → Bool} {c : Char} : ∀ x ∈ escapeChar f c, IsPlain x ∨ f x := by
  intro x hx
  rcases escape_cases f c with ⟨e, -, -, hc⟩ | ⟨k, e, -, -, hk⟩ | e <;> rw [e] at hx
  · rw [List.mem_singleton.1 hx]; exact hc
  · simp at hx
    rcases hx with rfl | rfl
    · left; decide
    · exact Or.inl hk
  · simp only [List.mem_cons, List.mem_append, List.not_mem_nil, or_false] at hx
    rcases hx with rfl | rfl | rfl | hx | rfl
    · left; decide
    · left; decide
    · left; decide
    · exact Or.inl (hex_mem _ x hx).2
    · left; decide

theorem escape_no_lf {f : Char → Bool} {c : Char} : '\n' ∉ escapeChar f c := by
  intro hx
  rcases escape_cases f c with ⟨e, -⟩ | ⟨k, e, -, -, hk⟩ | e <;> rw [e] at hx
  · rw [← List.mem_singleton.1 hx] at e
    revert e; simp [escapeChar]
  · simp at hx
    rw [← hx] at hk
    revert hk; decide
  · simp at hx
    have := (hex_mem _ _ hx).2
    revert this; decide

theorem quoted_no_lf {f : Char → Bool} {cs : List Char} : '\n' ∉ quoted f cs := by
  simp only [quoted, List.mem_append, List.mem_flatMap, List.mem_singleton, not_or, not_exists, not_and]
  exact ⟨⟨by decide, fun c _ => escape_no_lf⟩, by decide⟩

theorem indentText_inj {st : Bool} {a b : List Char} (h : indentText st a = indentText st b) : a = b := by
  induction a generalizing st b with
  | nil =>
    cases b with
    | nil => rfl
    | cons y b => simp [indentText] at h
  | cons x a ih =>
    cases b with
    | nil => simp [indentText] at h
    | cons y b =>
      simp only [indentText, List.append_cancel_left_eq, List.cons.injEq] at h
      obtain ⟨rfl, h⟩ := h
      rw [ih h]

theorem stringText_inj {f : Char → Bool} {o : FmtOpts} {cs ds : List Char}
    (h : stringText f o cs = stringText f o ds) : cs = ds := by
  unfold stringText at h
  cases ha : o.alternate with
  | false =>
    simp only [ha, Bool.false_eq_true, if_false, List.append_assoc, List.append_cancel_left_eq] at h
    exact (quoted_inj h).1
  | true =>
    have hl : ∀ x : List Char, '\n' ∉ x → Line ("array: ".toList ++ x ++ ",\n".toList) := by
      intro x hx
      refine ⟨by simp, fun a b e => ?_⟩
      rcases List.eq_nil_or_concat b with rfl | ⟨b, y, rfl⟩
      · rfl
      · exfalso
        have e : ("array: ".toList ++ x ++ [',']) ++ ['\n'] = (a ++ '\n' :: b) ++ [y] := by
          simpa using e
        have e := (List.append_inj' e rfl).1
        have : '\n' ∈ "array: ".toList ++ x ++ [','] := by rw [e]; simp
        simp [hx] at this
    rw [indentText_line true (hl _ quoted_no_lf), indentText_line true (hl _ quoted_no_lf)] at h
    simp only [ha, if_true, List.append_assoc, List.append_cancel_left_eq] at h
    exact (quoted_inj h).1

theorem wrappedText_inj {name : List Char} {o : FmtOpts} {a b : List Char}
    (h : wrappedText name o a = wrappedText name o b) : a = b := by
  unfold wrappedText at h
  cases ha : o.alternate with
  | false => simpa [ha] using h
  | true =>
    simp only [ha, if_true, List.append_assoc, List.append_cancel_left_eq, List.append_cancel_right_eq] at h
    have := indentText_inj h
    simpa using this

end Printing
end Verif
