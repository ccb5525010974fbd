import Verif.Proofs.Ops
import Verif.Spec.Range

/-! # Saturating range bounds against unbounded ones -/

namespace Verif
open Spec ArrayString

variable {N : Nat} {ε : Type} {s : ArrayString N} {cs : List Char}

theorem rangeStart_eq (r : RangeB) {n : Nat} (hn : n < usizeMax) :
    rangeStart r ≤ n ↔ startOf r ≤ n := by
  unfold rangeStart startOf saturatingAdd; cases r.start <;> simp only <;> omega

theorem rangeStart_of_le {r : RangeB} {n : Nat} (hn : n < usizeMax) (h : startOf r ≤ n) :
    rangeStart r = startOf r := by
  revert h; unfold rangeStart startOf saturatingAdd; cases r.start <;> intro h <;> dsimp only at * <;> first | rfl | omega

theorem rangeEnd_eq (r : RangeB) (len : Nat) {n : Nat} (hn : n < usizeMax) :
    rangeEnd r len ≤ n ↔ endOf r len ≤ n := by
  unfold rangeEnd endOf saturatingAdd; cases r.stop <;> simp only <;> omega

theorem rangeEnd_of_le {r : RangeB} {len n : Nat} (hn : n < usizeMax) (h : endOf r len ≤ n) :
    rangeEnd r len = endOf r len := by
  revert h; unfold rangeEnd endOf saturatingAdd; cases r.stop <;> intro h <;> dsimp only at * <;> first | rfl | omega

theorem range_inside {r : RangeB} {len : Nat} (hl : len ≤ 255) :
    (rangeStart r ≤ rangeEnd r len ∧ rangeEnd r len ≤ len) ↔ RangeInside r len := by
  have hm := usizeMax_ge
  have hlt : len < usizeMax := by omega
  unfold RangeInside
  constructor
  · rintro ⟨h1, h2⟩
    have h2' := (rangeEnd_eq r len hlt).1 h2
    rw [rangeEnd_of_le hlt h2'] at h1
    refine ⟨?_, h2'⟩
    exact (rangeStart_eq r (by omega)).1 h1
  · rintro ⟨h1, h2⟩
    rw [rangeEnd_of_le hlt h2, rangeStart_of_le (n := endOf r len) (by omega) h1]
    exact ⟨h1, h2⟩

theorem range_inside_eq {r : RangeB} {len : Nat} (hl : len ≤ 255) (h : RangeInside r len) :
    rangeStart r = startOf r ∧ rangeEnd r len = endOf r len := by
  have hm := usizeMax_ge
  obtain ⟨h1, h2⟩ := h
  exact ⟨rangeStart_of_le (n := endOf r len) (by omega) h1, rangeEnd_of_le (n := len) (by omega) h2⟩

theorem rangeStart_min {r : RangeB} (h : RangeOk r) : rangeStart r = min (startOf r) usizeMax := by
  obtain ⟨h, -⟩ := h; revert h
  unfold rangeStart startOf saturatingAdd BoundOk; cases r.start <;> simp <;> omega

theorem rangeEnd_min {r : RangeB} {len : Nat} (hl : len ≤ 255) (h : RangeOk r) :
    rangeEnd r len = min (endOf r len) usizeMax := by
  have hm := usizeMax_ge
  obtain ⟨-, h⟩ := h; revert h
  unfold rangeEnd endOf saturatingAdd BoundOk; cases r.stop <;> simp <;> omega

theorem range_noop {r : RangeB} {len : Nat} (hl : len ≤ 255) (h : RangeOk r) :
    rangeStart r = rangeEnd r len ↔ min (startOf r) usizeMax = min (endOf r len) usizeMax := by
  rw [rangeStart_min h, rangeEnd_min hl h]

theorem range_cut {r : RangeB} (hi : RangeInside r (byteLen cs)) (hb : RangeBoundary r cs) :
    ∃ p m q, cs = p ++ m ++ q ∧ byteLen p = startOf r ∧ byteLen p + byteLen m = endOf r (byteLen cs) :=
  cut_three hb.1 hb.2 hi.1

end Verif
