import Verif.Model.Layout
import Verif.Props.Sample

/-! # Properties of the memory layout -/

namespace Verif
open Layout

theorem roundUp_one (n : Nat) : roundUp n 1 = n := by simp [roundUp]

/-- C40: `ArrayString<N>` occupies `N + 1` bytes with alignment 1, in either order of its fields. -/
theorem C40_array_string (N : Nat) :
    arrayString N = ⟨N + 1, 1⟩ ∧ Layout.struct [u8, array u8 N] 1 = ⟨N + 1, 1⟩ ∧ drain N = ⟨N + 1, 1⟩ := by
  have h : arrayString N = ⟨N + 1, 1⟩ := by
    simp [arrayString, arrayStringFields, Layout.struct, place, array, u8, roundUp_one]
  refine ⟨h, ?_, ?_⟩
  · simp [Layout.struct, place, array, u8, roundUp_one, Nat.add_comm]
  · simp [drain, h, Layout.struct, place, roundUp_one]

/-- C40: these are layouts the reference allows, and it allows none smaller. -/
theorem C40_array_string_least (N : Nat) :
    IsStruct (arrayStringFields N) 1 (arrayString N) [0, N] ∧
    ∀ l offs, IsStruct (arrayStringFields N) 1 l offs → N + 1 ≤ l.size := by
  constructor
  · rw [(C40_array_string N).1]
    constructor <;> simp [arrayStringFields, array, u8]
  · intro l offs h
    obtain ⟨h1, h2, -, h4, -, -, -⟩ := h
    match offs, h1 with
    | [a, b], _ =>
      simp [arrayStringFields, array, u8] at h2 h4
      omega

example : IsStruct (arrayStringFields 3) 1 ⟨6, 1⟩ [2, 0] := by
  constructor <;> simp [arrayStringFields, array, u8]

/-- C40: `CacheString` occupies exactly one cache line, 64 bytes with alignment 64. -/
theorem C40_cache : cacheString = ⟨64, 64⟩ ∧ IsStruct [arrayString 63] 64 cacheString [0] ∧
    ∀ l offs, IsStruct [arrayString 63] 64 l offs → 64 ≤ l.size ∧ 64 ≤ l.align := by
  have h : cacheString = ⟨64, 64⟩ := by decide
  refine ⟨h, ?_, ?_⟩
  · rw [h, (C40_array_string 63).1]
    constructor <;> simp
  · intro l offs hl
    rw [(C40_array_string 63).1] at hl
    obtain ⟨h1, h2, -, -, -, h6, -⟩ := hl
    match offs, h1 with
    | [a], _ =>
      simp at h2
      exact ⟨by omega, h6⟩

/-- C40: a `CacheString` has room for 63 bytes of text, and none of its 64 bytes is padding; with a larger
capacity it would not fit in a cache line. -/
theorem C40_cache_full : CacheString.capacity = 63 ∧ (arrayString CacheString.capacity).size = cacheString.size ∧
    ∀ n, 63 < n → ∀ l offs, IsStruct [arrayString n] 64 l offs → 64 < l.size := by
  refine ⟨by decide, by decide, fun n hn l offs h => ?_⟩
  rw [(C40_array_string n).1] at h
  obtain ⟨h1, h2, -, -, -, -, -⟩ := h
  match offs, h1 with
  | [a], _ =>
    simp at h2
    omega

example : 63 < 64 ∧ IsStruct [arrayString 64] 64 ⟨128, 64⟩ [0] := by
  rw [(C40_array_string 64).1]
  refine ⟨by decide, ?_⟩
  constructor <;> simp

/-- C40: in an array of `CacheString`s each element has a cache line of its own. -/
theorem C40_cache_lines (base : Nat) (hb : cacheString.align ∣ base) (i j : Nat) (hij : i < j) (x y : Nat)
    (hx : base + i * cacheString.size ≤ x ∧ x < base + i * cacheString.size + cacheString.size)
    (hy : base + j * cacheString.size ≤ y ∧ y < base + j * cacheString.size + cacheString.size) :
    x / 64 = base / 64 + i ∧ y / 64 = base / 64 + j ∧ x / 64 ≠ y / 64 := by
  rw [C40_cache.1] at *
  simp only at *
  obtain ⟨k, rfl⟩ := hb
  omega

example : cacheString.align ∣ 640 ∧ 640 + 2 * cacheString.size ≤ 800 ∧ 800 < 640 + 2 * cacheString.size + cacheString.size := by
  decide

/-- C40: `String` is three words. -/
theorem C40_string (w : Nat) (hw : 1 ≤ w) : string w = ⟨3 * w, w⟩ := by
  have e0 : roundUp 0 w = 0 := by
    unfold roundUp; rw [Nat.div_eq_of_lt (by omega)]; simp
  have e : ∀ k, roundUp (k * w) w = k * w := by
    intro k
    unfold roundUp
    have : (k * w + w - 1) / w = k := by
      have : k * w + w - 1 = w * k + (w - 1) := by rw [Nat.mul_comm]; omega
      rw [this, Nat.mul_add_div (by omega), Nat.div_eq_of_lt (by omega : w - 1 < w), Nat.add_zero]
    rw [this]
  have e1 := e 1
  have e2 := e 2
  have e3 := e 3
  simp only [Nat.one_mul] at e1
  have a2 : w + w = 2 * w := by omega
  have a3 : 2 * w + w = 3 * w := by omega
  have am : max 1 w = w := by omega
  simp [string, Layout.struct, place, word, e0, e1, am, a2, e2, a3, e3]

/-- C40: `SmallString` takes one byte more than `String`. -/
theorem C40_small_string (w : Nat) (hw : 1 ≤ w) :
    (arrayString (smallStringCapacity w)).size = (string w).size + 1 := by
  rw [C40_string w hw, (C40_array_string _).1]
  simp [smallStringCapacity, word]; omega

/-- C40, refuted: no layout makes a `SmallString` as small as a `String`, contrary to its doc comment
(lib.rs:141-145, which says 24 bytes on 64 bit and 12 bytes on 32 bit targets). -/
theorem C40_refuted (w : Nat) (hw : 1 ≤ w) :
    ¬ ∃ l offs, IsStruct (arrayStringFields (smallStringCapacity w)) 1 l offs ∧ l.size = (string w).size := by
  rintro ⟨l, offs, h, e⟩
  have := (C40_array_string_least _).2 l offs h
  rw [C40_string w hw] at e
  simp [smallStringCapacity, word] at this e
  omega

example : (arrayString (smallStringCapacity 8)).size = 25 ∧ (string 8).size = 24 ∧
    (arrayString (smallStringCapacity 4)).size = 13 ∧ (string 4).size = 12 ∧
    (arrayString maxStringCapacity).size = 256 := by decide

/-- C40: the aliases have valid capacities (32 and 64 bit). -/
theorem C40_aliases : 1 ≤ smallStringCapacity 4 ∧ smallStringCapacity 8 ≤ 255 ∧
    1 ≤ maxStringCapacity ∧ maxStringCapacity ≤ 255 := by decide

/-- C40: `MaxString` is the biggest string supported (lib.rs:148): no capacity that is allowed is larger, and
it takes 256 bytes. -/
theorem C40_max_string : ValidCapacity maxStringCapacity ∧ (∀ N, ValidCapacity N → N ≤ maxStringCapacity) ∧
    arrayString maxStringCapacity = ⟨256, 1⟩ :=
  ⟨⟨by decide⟩, fun _ h => by have := h.mem; rw [List.mem_range'_1] at this; show _ ≤ 255; omega, by decide⟩

example : ValidCapacity 255 ∧ ¬ ValidCapacity 256 := ⟨⟨by decide⟩, fun h => absurd h.mem (by decide)⟩

end Verif
