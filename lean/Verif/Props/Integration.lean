import Verif.Model.Json
import Verif.Props.Debug

/-! # Properties of the serde and diesel traits -/

namespace Verif
open Spec

variable {ε ρ ω : Type} {N : Nat} [ValidCapacity N]

/-! ## serde -/

omit [ValidCapacity N] in
/-- C38: serialising hands the text to `serialize_str`, and nothing else. -/
theorem C38_serialize (s : ArrayString N) (cs : List Char) (hs : Holds s cs) (ser : Serializer ε ρ) :
    s.serialize ser = ser.serializeStr (utf8 cs) := by
  simp only [ArrayString.serialize, hs.asStr, Res.bind_ok, Str.serialize]

theorem deserialize_text (w : List Char) (v : Visit) (e1 e2 : ε)
    (hv : v = .borrowedStr (utf8 w) ∨ v = .borrowedBytes (utf8 w)) :
    ∃ (s : ArrayString N) (pre : List Char), ArrayString.deserialize ⟨.ok v, e1, e2⟩ = .ok s ∧ Holds s pre ∧
      LongestFit N w pre := by
  obtain ⟨s, e, h⟩ := fromStrTruncate_ok (N := N) (ε := ε) ValidCapacity.le w
  refine ⟨s, _, ?_, h, longestFit_takeFit _ _⟩
  rcases hv with rfl | rfl
  · simpa [ArrayString.deserialize, Str.deserialize] using e
  · simpa [ArrayString.deserialize, Str.deserialize, validUtf8_utf8] using e

/-- C38: deserialising, for everything a format may offer.  A lent text gives its longest fitting
prefix; anything that cannot be lent is rejected; the errors of the format are passed on. -/
theorem C38_deserialize (v : Visit) (e1 e2 : ε) :
    (∀ w, v = .borrowedStr (utf8 w) ∨ v = .borrowedBytes (utf8 w) →
      ∃ (s : ArrayString N) (pre : List Char), ArrayString.deserialize ⟨.ok v, e1, e2⟩ = .ok s ∧ Holds s pre ∧
        LongestFit N w pre) ∧
    (∀ b, v = .borrowedBytes b → (¬ ∃ w, b = utf8 w) →
      (ArrayString.deserialize ⟨.ok v, e1, e2⟩ : Res ε (ArrayString N)) = .err e2) ∧
    ((∀ b, v ≠ .borrowedStr b) → (∀ b, v ≠ .borrowedBytes b) →
      (ArrayString.deserialize ⟨.ok v, e1, e2⟩ : Res ε (ArrayString N)) = .err e1) ∧
    (∀ e, (ArrayString.deserialize ⟨.err e, e1, e2⟩ : Res ε (ArrayString N)) = .err e) := by
  refine ⟨fun w hv => deserialize_text w v e1 e2 hv, ?_, ?_, fun e => rfl⟩
  · rintro b rfl hb
    have : Str.validUtf8 b = false := by
      rw [← Bool.not_eq_true, validUtf8_iff]; exact hb
    simp [ArrayString.deserialize, Str.deserialize, this]
  · intro h1 h2
    cases v <;> first | rfl | exact absurd rfl (h1 _) | exact absurd rfl (h2 _)

example : Visit.borrowedStr (utf8 ['é']) = .borrowedStr (utf8 ['é']) ∧ ¬ ∃ w, ([0xC3] : Bytes) = utf8 w :=
  ⟨rfl, by rw [← validUtf8_iff]; decide⟩

omit [ValidCapacity N] in
/-- C38: a format that lends the text it was given makes the round trip the identity, also into
a string of another capacity at least as large as the text. -/
theorem C38_round_trip (ser : Serializer ε ρ) (de : ρ → Deserializer ε)
    (lends : ∀ w : List Char, ∃ r, ser.serializeStr (utf8 w) = .ok r ∧ (de r).visit = .ok (.borrowedStr (utf8 w)))
    {K : Nat} [ValidCapacity K] (s : ArrayString N) (cs : List Char) (hs : Holds s cs) (hK : byteLen cs ≤ K) :
    ∃ (r : ρ) (t : ArrayString K), s.serialize ser = .ok r ∧ ArrayString.deserialize (de r) = .ok t ∧ Holds t cs := by
  obtain ⟨r, h1, h2⟩ := lends cs
  refine ⟨r, ?_⟩
  obtain ⟨t, pre, e, ht, hp⟩ := deserialize_text (N := K) cs (.borrowedStr (utf8 cs)) (de r).invalidType
    (de r).invalidValue (.inl rfl)
  refine ⟨t, by rw [C38_serialize s cs hs, h1], ?_, ?_⟩
  · rw [← e, ← h2]
  · rw [longestFit_iff.1 hp, takeFit_of_le hK] at ht; exact ht

/-- The format that is the identity lends its text. -/
example : ∀ w : List Char, ∃ r, (⟨.ok⟩ : Serializer Unit Bytes).serializeStr (utf8 w) = .ok r ∧
    (⟨.ok (.borrowedStr r), (), ()⟩ : Deserializer Unit).visit = .ok (.borrowedStr (utf8 w)) :=
  fun w => ⟨utf8 w, rfl, rfl⟩

/-- C38, refuted: not everything `String` can be deserialised from can be deserialised as an
`ArrayString`, though it fits. -/
theorem C38_refuted : ¬ (∀ (d : Deserializer Unit) (w : List Char), Str.deserializeString d = .ok (utf8 w) →
    byteLen w ≤ 8 → ∃ s : ArrayString 8, ArrayString.deserialize d = .ok s ∧ Holds s w) := by
  intro h
  obtain ⟨s, e, -⟩ := h ⟨.ok (.str (utf8 ['a'])), (), ()⟩ ['a'] rfl (by decide)
  simp [ArrayString.deserialize, Str.deserialize] at e

/-- C38: the converse holds: what an `ArrayString` accepts, `String` accepts, and the string holds the
longest fitting prefix of it.  (A format passes only UTF-8 to `visit_borrowed_str`.) -/
theorem C38_string_accepts (d : Deserializer ε) (hd : ∀ b, d.visit = .ok (.borrowedStr b) → ∃ w, b = utf8 w)
    (s : ArrayString N) (h : ArrayString.deserialize d = .ok s) :
    ∃ (w pre : List Char), Str.deserializeString d = .ok (utf8 w) ∧ Holds s pre ∧ LongestFit N w pre := by
  obtain ⟨v, e1, e2⟩ := d
  have key : ∀ w v, v = Visit.borrowedStr (utf8 w) ∨ v = .borrowedBytes (utf8 w) →
      ArrayString.deserialize ⟨.ok v, e1, e2⟩ = .ok s → ∃ pre, Holds s pre ∧ LongestFit N w pre := by
    intro w v hv h
    obtain ⟨s', pre, e, hh⟩ := deserialize_text (N := N) w v e1 e2 hv
    rw [h, Res.ok.injEq] at e
    exact ⟨pre, e ▸ hh⟩
  cases v with
  | ok v =>
    cases v with
    | borrowedStr b =>
      obtain ⟨w, rfl⟩ := hd b rfl
      obtain ⟨pre, hp⟩ := key w _ (.inl rfl) h
      exact ⟨w, pre, rfl, hp⟩
    | borrowedBytes b =>
      by_cases hb : Str.validUtf8 b = true
      · obtain ⟨w, rfl⟩ := (validUtf8_iff b).1 hb
        obtain ⟨pre, hp⟩ := key w _ (.inr rfl) h
        exact ⟨w, pre, by simp [Str.deserializeString, hb], hp⟩
      · simp [ArrayString.deserialize, Str.deserialize, hb] at h
    | _ => simp [ArrayString.deserialize, Str.deserialize] at h
  | _ => cases h

example : (⟨.ok (.borrowedStr (utf8 ['é'])), (), ()⟩ : Deserializer Unit).visit = .ok (.borrowedStr (utf8 ['é'])) :=
  rfl

/-- C38 for `CacheString`. -/
theorem C38_cache (c : CacheString) (ser : Serializer ε ρ) (d : Deserializer ε) :
    c.serialize ser = c.inner.serialize ser ∧
    (∀ a, ArrayString.deserialize d = .ok a → CacheString.deserialize d = .ok ⟨a⟩) ∧
    (∀ e, (ArrayString.deserialize d : Res ε (ArrayString 63)) = .err e → CacheString.deserialize d = .err e) :=
  ⟨rfl, fun a h => by simp [CacheString.deserialize, h], fun e h => by simp [CacheString.deserialize, h]⟩

/-! ### JSON -/

section Json
open Json

theorem special_cases (b : UInt8) (h : special b = true) :
    (∃ e, escapeByte b = [92, e] ∧ ∀ r, readRest (92 :: e :: r) = (readRest r).map fun p => (b :: p.1, true, p.2.2)) ∨
    (b.toNat < 32 ∧ escapeByte b = [92, 117, 48, 48, hexDigit (b.toNat / 16), hexDigit (b.toNat % 16)]) := by
  unfold escapeByte
  by_cases h1 : b = 34
  · subst h1; exact .inl ⟨34, rfl, fun r => by simp [readRest]⟩
  by_cases h2 : b = 92
  · subst h2; exact .inl ⟨92, rfl, fun r => by simp [readRest]⟩
  by_cases h3 : b = 8
  · subst h3; exact .inl ⟨98, rfl, fun r => by simp [readRest]⟩
  by_cases h4 : b = 9
  · subst h4; exact .inl ⟨116, rfl, fun r => by simp [readRest]⟩
  by_cases h5 : b = 10
  · subst h5; exact .inl ⟨110, rfl, fun r => by simp [readRest]⟩
  by_cases h6 : b = 12
  · subst h6; exact .inl ⟨102, rfl, fun r => by simp [readRest]⟩
  by_cases h7 : b = 13
  · subst h7; exact .inl ⟨114, rfl, fun r => by simp [readRest]⟩
  · have h8 : b.toNat < 32 := by simpa [special, h1, h2] using h
    exact .inr ⟨h8, by simp [h1, h2, h3, h4, h5, h6, h7, h8]⟩

theorem hex_control : ∀ n : Fin 32, hex4 48 48 (hexDigit (n.val / 16)) (hexDigit (n.val % 16)) = some n.val := by
  decide

theorem encode_control : ∀ n : Fin 32, Str.encodeUtf8 (Char.ofNat n.val) = [UInt8.ofNat n.val] := by decide

theorem readRest_escape (b : UInt8) (r : Bytes) :
    readRest (escapeByte b ++ r) = (readRest r).map fun p => (b :: p.1, special b || p.2.1, p.2.2) := by
  by_cases h : special b = true
  · rcases special_cases b h with ⟨e, h1, h2⟩ | ⟨h1, h2⟩
    · rw [h1]; simp only [List.cons_append, List.nil_append, h2, h, Bool.true_or]
    · rw [h2]
      have h3 := hex_control ⟨b.toNat, h1⟩
      have h4 := encode_control ⟨b.toNat, h1⟩
      simp only at h3 h4
      simp only [List.cons_append, List.nil_append, readRest, h3, h4]
      rw [if_neg (by omega), if_neg (by omega)]
      simp [h]
  · have h1 : b ≠ 34 := by rintro rfl; exact h rfl
    have h2 : b ≠ 92 := by rintro rfl; exact h rfl
    have h3 : ¬ b.toNat < 32 := by intro h3; exact h (by simp [special, h3])
    have he : escapeByte b = [b] := by
      unfold escapeByte
      rw [if_neg h1, if_neg h2]
      have : ∀ k : UInt8, k.toNat < 32 → b ≠ k := by rintro k hk rfl; exact h3 hk
      rw [if_neg (this 8 (by decide)), if_neg (this 9 (by decide)), if_neg (this 10 (by decide)),
        if_neg (this 12 (by decide)), if_neg (this 13 (by decide)), if_neg h3]
    rw [he]
    simp only [List.cons_append, List.nil_append]
    rw [readRest]
    · simp [h]
    all_goals simp_all

theorem readRest_write (s r : Bytes) :
    readRest (s.flatMap escapeByte ++ 34 :: r) = some (s, s.any special, r) := by
  induction s with
  | nil => simp [readRest]
  | cons b s ih => simp [List.flatMap_cons, List.append_assoc, readRest_escape, ih]

theorem fromStr_write (s : Bytes) : (Json.fromStr (Json.write s)).visit =
    .ok (if s.any special then .str s else .borrowedStr s) := by
  have : Json.write s = 34 :: (s.flatMap escapeByte ++ 34 :: []) := by simp [Json.write]
  rw [this]
  simp only [Json.fromStr, List.dropWhile_cons, show isSpace 34 = false from rfl]
  simp only [readRest_write, Bool.false_eq_true, if_false, List.all_nil, Bool.not_true]
  split <;> rfl

/-- C38: through JSON, a text without quotes, backslashes and control characters comes back; any other
is rejected; and from a reader every text is rejected.  (`String` takes all of them.) -/
theorem C38_json (s : ArrayString N) (cs : List Char) (hs : Holds s cs) :
    ∃ doc, s.serialize Json.toString = .ok doc ∧
      (¬ (utf8 cs).any special → ∃ t : ArrayString N, ArrayString.deserialize (Json.fromStr doc) = .ok t ∧ Holds t cs) ∧
      ((utf8 cs).any special →
        (ArrayString.deserialize (Json.fromStr doc) : Res _ (ArrayString N)) = .err .invalidType) ∧
      (ArrayString.deserialize (Json.fromReader doc) : Res _ (ArrayString N)) = .err .invalidType ∧
      Str.deserializeString (Json.fromStr doc) = .ok (utf8 cs) ∧
      Str.deserializeString (Json.fromReader doc) = .ok (utf8 cs) := by
  have hv := fromStr_write (utf8 cs)
  refine ⟨Json.write (utf8 cs), C38_serialize s cs hs _, fun h => ?_, fun h => ?_, ?_, ?_, ?_⟩
  · rw [if_neg h] at hv
    obtain ⟨t, pre, e, ht, hp⟩ := deserialize_text (N := N) cs (.borrowedStr (utf8 cs)) JsonError.invalidType
      JsonError.invalidValue (.inl rfl)
    refine ⟨t, ?_, ?_⟩
    · rw [← e, ← hv]; rfl
    · rw [longestFit_iff.1 hp, takeFit_of_le hs.le] at ht; exact ht
  · rw [if_pos h] at hv
    simp [ArrayString.deserialize, Str.deserialize, hv]; rfl
  · simp only [ArrayString.deserialize, Str.deserialize, Json.fromReader, hv]
    by_cases h : (utf8 cs).any special = true <;> simp [h]
  · simp only [Str.deserializeString, hv]
    by_cases h : (utf8 cs).any special = true <;> simp [h]
  · simp only [Str.deserializeString, Json.fromReader, hv]
    by_cases h : (utf8 cs).any special = true <;> simp [h]

example : ¬ (utf8 ['h', 'é']).any special ∧ (utf8 ['a', '\n']).any special ∧
    Json.write (utf8 ['a', '\n', '\x01']) = lit "\"a\\n\\u0001\"" := by decide

end Json

/-! ## diesel -/

omit [ValidCapacity N] in
/-- C39: `to_sql` writes the text as a `str`, and nothing else. -/
theorem C39_to_sql (db : Backend ε ω ρ) (s : ArrayString N) (cs : List Char) (hs : Holds s cs) :
    s.toSql db = db.toSql (utf8 cs) := by
  funext w
  simp only [ArrayString.toSql, M.bind_apply, M.lift_apply, hs.asStr]

/-- C39: `from_sql` gives the longest fitting prefix of the column text and passes the backend's errors
on; there is no undefined behaviour as long as the backend returns no null pointer. -/
theorem C39_from_sql (db : Backend ε ω ρ) (raw : ρ) :
    (∀ w, db.fromSql raw = .ok (some (utf8 w)) → ∃ (s : ArrayString N) (pre : List Char),
      ArrayString.fromSql db raw = .ok s ∧ Holds s pre ∧ LongestFit N w pre ∧ (byteLen w ≤ N → pre = w)) ∧
    (∀ e, db.fromSql raw = .err e → (ArrayString.fromSql db raw : Res ε (ArrayString N)) = .err e) := by
  constructor
  · intro w h
    obtain ⟨s, e, hs⟩ := fromStrTruncate_ok (N := N) (ε := ε) ValidCapacity.le w
    exact ⟨s, _, by simpa [ArrayString.fromSql, h, debugAssert] using e, hs, longestFit_takeFit _ _, takeFit_of_le⟩
  · intro e h
    simp [ArrayString.fromSql, h]

/-- The column text of the PostgreSQL and MySQL backends is its bytes. -/
def byteBackend : Backend Unit Bytes Bytes where
  toSql b := fun out => (.ok (), out ++ b)
  fromSql raw := if Str.validUtf8 raw then .ok (some raw) else .err ()

/-- C39: a backend that reads back the text it stored makes the round trip the identity. -/
theorem C39_round_trip (db : Backend ε ω ρ) (empty : ω) (store : ω → ρ)
    (stores : ∀ w : List Char, ∃ o, db.toSql (utf8 w) empty = (.ok (), o) ∧ db.fromSql (store o) = .ok (some (utf8 w)))
    (s : ArrayString N) (cs : List Char) (hs : Holds s cs) :
    ∃ o, s.toSql db empty = (.ok (), o) ∧
      ∃ t : ArrayString N, ArrayString.fromSql db (store o) = .ok t ∧ Holds t cs := by
  obtain ⟨o, h1, h2⟩ := stores cs
  obtain ⟨t, pre, e, ht, -, hp⟩ := (C39_from_sql (N := N) db (store o)).1 cs h2
  exact ⟨o, by rw [C39_to_sql db s cs hs, h1], t, e, hp hs.le ▸ ht⟩

example (w : List Char) : ∃ o, byteBackend.toSql (utf8 w) [] = (.ok (), o) ∧
    byteBackend.fromSql (id o) = .ok (some (utf8 w)) :=
  ⟨utf8 w, rfl, by simp [byteBackend]⟩

/-- C39 for `CacheString`. -/
theorem C39_cache (db : Backend ε ω ρ) (raw : ρ) (c : CacheString) :
    c.toSql db = c.inner.toSql db ∧
    (∀ a, ArrayString.fromSql db raw = .ok a → CacheString.fromSql db raw = .ok ⟨a⟩) ∧
    (∀ e, (ArrayString.fromSql db raw : Res ε (ArrayString 63)) = .err e → CacheString.fromSql db raw = .err e) :=
  ⟨rfl, fun a h => by simp [CacheString.fromSql, h], fun e h => by simp [CacheString.fromSql, h]⟩

end Verif
