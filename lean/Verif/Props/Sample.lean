import Verif.Proofs.Core

/-! # A sample string for the non-vacuity examples -/

namespace Verif
open Spec

/-- A string of capacity 8 holding `"hé "`, with stale (even invalid) bytes past its length. -/
def sample : ArrayString 8 := ⟨[104, 195, 169, 32, 255, 7, 0, 130], 4⟩

theorem sample_holds : Holds sample ['h', 'é', ' '] := by decide

/-- A full string of capacity 3 holding `"é!"`. -/
def fullSample : ArrayString 3 := ⟨[195, 169, 33], 3⟩

theorem fullSample_holds : Holds fullSample ['é', '!'] := by decide

instance : ValidCapacity 8 := ⟨by decide⟩
instance : ValidCapacity 3 := ⟨by decide⟩
instance : ValidCapacity 1 := ⟨by decide⟩
instance : ValidCapacity 63 := ⟨by decide⟩
instance : ValidCapacity 255 := ⟨by decide⟩

end Verif
