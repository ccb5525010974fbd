import Verif.Proofs.CoreStr
import Verif.Proofs.Trim
import Verif.Proofs.Utf16
import Verif.Props.Sample

/-! # Properties of the functions of `core`, as written there with masks and shifts -/

namespace Verif
open Spec

/-- C52: `from_utf8` accepts exactly the encodings of texts, whatever number of ASCII bytes its fast path
skips; so does the function of `Model/Str`. -/
theorem C52_validation (fast : Nat → Nat) (v : Bytes) :
    (Core.runUtf8Validation fast v 0 = true ↔ ∃ cs, v = utf8 cs) ∧
    Core.runUtf8Validation fast v 0 = Str.validUtf8 v := by
  rw [core_validUtf8]
  exact ⟨validUtf8_iff v, rfl⟩

/-- C52: any mixture of calls of `Chars::next` and `Chars::next_back` on the bytes of a text takes the
characters off its two ends, and neither `unwrap_unchecked` nor `from_u32_unchecked` is misused. -/
theorem C52_chars {ε : Type} (es : List End) (cs : List Char) :
    (Core.charsTakes es (utf8 cs) : Res ε _) = .ok ((takeEnds es cs).1, utf8 (takeEnds es cs).2) :=
  core_takeEnds es cs

example : takeEnds [.back, .front, .back, .front] ['h', 'é', '😀'] =
    ([some '😀', some 'h', some 'é', none], []) := by decide

/-- C52: the same for `CharIndices`, with the byte offsets of the characters in the text; what is left of the
iterator are the bytes and the offset of the characters left. -/
theorem C52_char_indices {ε : Type} (es : List End) (cs : List Char) (h : byteLen cs ≤ usizeMax) :
    (∃ off rest, indexed off rest = (takeEnds es (indexed 0 cs)).2 ∧
      (Core.CharIndices.takes es ⟨0, utf8 cs⟩ : Res ε _) = .ok ((takeEnds es (indexed 0 cs)).1, ⟨off, utf8 rest⟩)) ∧
    Str.charIndices (utf8 cs) = indexed 0 cs :=
  ⟨core_indexTakes (ε := ε) es 0 cs (by omega), charIndices_utf8 cs⟩

example : byteLen ['h', 'é', '😀'] ≤ usizeMax ∧
    (takeEnds [.back, .front, .back, .front] (indexed 0 ['h', 'é', '😀'])).1 =
      [some (3, '😀'), some (0, 'h'), some (1, 'é'), none] :=
  ⟨Nat.le_trans (by decide) usizeMax_ge, by decide⟩

/-- C52: `is_char_boundary` is true exactly at the boundaries of the text. -/
theorem C52_char_boundary (b : Bytes) (i : Nat) :
    Core.isCharBoundary b i = Str.isCharBoundary b i ∧
    ∀ cs, b = utf8 cs → (Core.isCharBoundary b i = true ↔ IsBoundary cs i) := by
  rw [core_isCharBoundary]
  refine ⟨rfl, ?_⟩
  rintro cs rfl
  exact isCharBoundary_utf8 cs i

/-- C52: `len_utf8` and `encode_utf8` give the length and the bytes of the encoding of a character. -/
theorem C52_encode (c : Char) :
    Core.lenUtf8 c.val = byteLen [c] ∧ Core.encodeUtf8 c.val = utf8 [c] ∧
    Core.lenUtf8 c.val = Str.lenUtf8 c ∧ Core.encodeUtf8 c.val = Str.encodeUtf8 c := by
  rw [core_lenUtf8, core_encode]
  simp [Str.lenUtf8, Str.encodeUtf8, byteLen]

/-- C52: `char::is_whitespace`, with its table, is true exactly of the code points with the property
`White_Space`. -/
theorem C52_whitespace (c : Char) : Core.isWhitespace c = decide (IsWhite c) ∧ Core.isWhitespace c = Str.isWhitespace c := by
  rw [core_isWhitespace]
  exact ⟨isWhitespace_eq c, rfl⟩

/-- C52: `decode_utf16` reports the pieces (characters and unpaired surrogates) of the units one by one,
then nothing, for ever. -/
theorem C52_decode_utf16 {ε : Type} (l : List UInt16) (segs : List Seg) (h : Segments l segs) (n : Nat) :
    (Core.decodeUtf16Run n (none, l) : Res ε _) =
      .ok ((segs.map (fun s : Seg => some (match s with | .chr c => some c | .lone _ => none)) ++ List.replicate n none).take n) := by
  obtain ⟨h1, h2⟩ := h
  have key : ∀ (n : Nat) (k : Option UInt16 × List UInt16) (segs : List Seg), SegsOk segs → pending k = segUnits segs →
      (Core.decodeUtf16Run n k : Res ε _) =
        .ok ((segs.map (fun s => some (Seg.toItem s)) ++ List.replicate n none).take n) := by
    intro n
    induction n with
    | zero => intros; rfl
    | succ n ih =>
      intro k segs hok hp
      have hc := core_decodeUtf16 (ε := ε) k
      cases segs with
      | nil =>
        have e := decode_state (k := k)
        rw [hp] at e
        have e2 : Str.decodeUtf16Next k = .done (none, []) := e
        rw [e2] at hc
        simp only at hc
        have := ih (none, []) [] trivial rfl
        simp only [Core.decodeUtf16Run, hc, Bind.bind, Res.bind, this]
        simp [List.replicate_succ, pure]
      | cons sg segs =>
        obtain ⟨k', e, hp'⟩ := decode_step hok hp
        rw [e] at hc
        simp only at hc
        have hok' : SegsOk segs := SegsOk.append (a := [sg]) hok
        have := ih k' segs hok' hp'
        simp only [Core.decodeUtf16Run, hc, Bind.bind, Res.bind, this]
        rw [List.replicate_succ', ← List.append_assoc, List.map_cons, List.cons_append, List.cons_append, List.take_succ_cons,
          List.take_append_of_le_length (l₂ := [none]) (by simp)]
        rfl
  have := key n (none, l) segs h2 h1.symm
  exact this

example : Segments [0xD83D, 0xDE00, 0xDC00, 104] [.chr '😀', .lone 0xDC00, .chr 'h'] := by
  refine ⟨by decide, ?_⟩
  simp [SegsOk, IsHigh, IsLow]

/-- C52: copying byte by byte, upwards or downwards depending on the direction, moves the area as if it
had been read completely first, even when source and destination overlap. -/
theorem C52_memmove {ε : Type} (mem : Bytes) (src dst n : Nat) (hs : src + n ≤ mem.length) (hd : dst + n ≤ mem.length) :
    (Core.memmove mem src dst n).length = mem.length ∧
    (∀ i, i < n → (Core.memmove mem src dst n)[dst + i]? = mem[src + i]?) ∧
    (∀ i, i < dst ∨ dst + n ≤ i → (Core.memmove mem src dst n)[i]? = mem[i]?) ∧
    (memCopy mem src dst n : Res ε _) = .ok (Core.memmove mem src dst n) := by
  have h := core_memmove (ε := ε) mem src dst n hs hd
  have e : Core.memmove mem src dst n = mem.take dst ++ (mem.drop src).take n ++ mem.drop (dst + n) := by
    unfold memCopy at h
    rw [if_pos ⟨hs, hd⟩] at h
    injection h with h
    exact h.symm
  refine ⟨?_, ?_, ?_, h⟩
  · rw [e]; simp; omega
  · intro i hi
    rw [e, List.append_assoc, List.getElem?_append_right (by simp; omega), List.length_take,
      List.getElem?_append_left (by simp; omega), List.getElem?_take_of_lt (by omega), List.getElem?_drop]
    congr 1; omega
  · rintro i (hi | hi)
    · rw [e, List.append_assoc, List.getElem?_append_left (by simp; omega), List.getElem?_take_of_lt hi]
    · rw [e, List.getElem?_append_right (by simp; omega), List.getElem?_drop]
      congr 1; simp; omega

example : Core.memmove [1, 2, 3, 4, 5] 0 2 3 = [1, 2, 1, 2, 3] ∧ Core.memmove [1, 2, 3, 4, 5] 2 0 3 = [3, 4, 5, 4, 5] ∧
    Core.copyForward [1, 2, 3, 4, 5] 0 2 3 ≠ [1, 2, 1, 2, 3] := by decide

end Verif
