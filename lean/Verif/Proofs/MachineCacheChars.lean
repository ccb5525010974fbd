import Verif.Model.MachineCacheChars
import Verif.Proofs.BorrowCache
import Verif.Proofs.MachineCache
import Verif.Proofs.MachineChars

/-!
# The characters of a `CacheString`: the lemmas of C71 after `deref_mut`
-/

namespace Verif.Borrow
open Spec

variable {R : Rules} {N : Nat}

/-- The accesses of `Machine.Cache.Chars.exec` in a world with a string value; used in proofs only. -/
def Cache.Chars.exec (caller arg : Tag) (op : Op) : M (World R N) Failure Out :=
  match op with
  | .pop | .trim | .remove _ | .retain _ | .drain _ _ => do
    let v ← derefMut caller
    Borrow.Chars.exec v arg op
  | _ => Cache.exec caller arg op

theorem sim_cacheChars_exec [ValidCapacity N] {L : Laws R} {A : Text R N} {T P : Nat → List Tag} {w : World R N}
    {root caller arg : Tag} {q : List Ref} {op : Op}
    (g : State L (Home L root fun _ => q) A T P w) (hs : Shape w.str)
    (ht : ∀ t ∈ texts op, N + 1 + (utf8 t).length ≤ A.total) (ha : Usable A.b T arg (N + 1) A.total)
    (hc : tagOf root q = caller) (hq : useAll q = q) :
    Same L (Home L root fun _ => q) A P T (Cache.Chars.exec caller arg op) (Verif.exec op) w := by
  have through (h : Cache.Chars.exec (R := R) (N := N) caller arg op = (do
      let v ← Cache.derefMut caller
      Chars.exec v arg op)) :
      Same L (Home L root fun _ => q) A P T (Cache.Chars.exec caller arg op) (Verif.exec op) w := by
    rw [h]
    exact sim_derefMut g hc hq fun q' v w' h1 h2 h3 g' => sim_chars_exec g' (by rw [h3]; exact hs) ht ha h2 h1
  cases op with
  | pop => exact through rfl
  | trim => exact through rfl
  | remove => exact through rfl
  | retain => exact through rfl
  | drain => exact through rfl
  | _ => exact sim_cacheExecVia g hs ht ha hc hq

end Verif.Borrow

namespace Verif.Machine
open Spec
open Borrow (Rules Tag World)

theorem sim_cacheChars_exec {R : Rules} {N K : Nat} [ValidCapacity N] {g : Nat → UInt8} {caller arg : Tag} {op : Op}
    (hg : Valid N g) (hK : ∀ t ∈ Borrow.texts op, byteLen t ≤ K) :
    SimCall (oneText op) K g (Cache.Chars.exec caller arg op : M (Mem R N) _ _)
      (Borrow.Cache.Chars.exec caller arg op) := by
  have through : SimCall (oneText op) K g (Cache.derefMut caller >>= fun v => Chars.exec v arg op : M (Mem R N) _ _)
      (Borrow.Cache.derefMut caller >>= fun v => Borrow.Chars.exec v arg op) :=
    simCall_then sim_derefMut fine_derefMut fun _ => sim_chars_exec hg hK
  cases op with
  | pop => exact through
  | trim => exact through
  | remove => exact through
  | retain => exact through
  | drain => exact through
  | _ => exact sim_cacheExec (caller := caller) (arg := arg) hg hK

end Verif.Machine
