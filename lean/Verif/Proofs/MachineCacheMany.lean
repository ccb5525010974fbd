import Verif.Model.MachineCacheMany
import Verif.Proofs.MachineMany

/-! The functions of `CacheString` that only read, for strings at any address. -/

namespace Verif.Machine.Cache.At
open Spec
open Borrow (Rules Tag World Laws Inv Usable Covers Grows)
open Machine.At (Stored RefAt reads_call reads_callBoth reads_callRef reads_refAt)

variable {R : Rules} {L : Laws R} {N : Nat} {ε α β : Type} {b : Nat → Tag} {B : Nat → R.St → Prop} {total : Nat}
  {g : Nat → UInt8} {T P : Nat → List Tag} {o o' n : Nat} {self other : Tag} {cs ds : List Char}

theorem reads_eq (hg : Stored N g o cs) (hg' : Stored N g o' ds)
    (hself : Usable b T self o (o + N + 1)) (hh : o + N + 1 ≤ total)
    (hother : Usable b T other o' (o' + N + 1)) (hh' : o' + N + 1 ≤ total) :
    Reads L b B total g (eq o self o' other : M (Mem R N) ε Bool) T P fun r _ => r = decide (cs = ds) :=
  reads_callBoth hself hh hother hh' fun _ _ _ _ hu hv => Machine.At.reads_eq hg hg' hu.usable hh hv.usable hh'

theorem reads_ne (hg : Stored N g o cs) (hg' : Stored N g o' ds)
    (hself : Usable b T self o (o + N + 1)) (hh : o + N + 1 ≤ total)
    (hother : Usable b T other o' (o' + N + 1)) (hh' : o' + N + 1 ≤ total) :
    Reads L b B total g (ne o self o' other : M (Mem R N) ε Bool) T P fun r _ => r = decide (cs ≠ ds) :=
  reads_callBoth hself hh hother hh' fun _ _ _ _ hu hv =>
    reads_bind (reads_eq hg hg' hu.usable hh hv.usable hh') fun _ _ _ h => reads_pure (by subst h; simp)

theorem reads_cmp (hg : Stored N g o cs) (hg' : Stored N g o' ds)
    (hself : Usable b T self o (o + N + 1)) (hh : o + N + 1 ≤ total)
    (hother : Usable b T other o' (o' + N + 1)) (hh' : o' + N + 1 ≤ total) :
    Reads L b B total g (cmp o self o' other : M (Mem R N) ε Ordering) T P fun r _ => r = Spec.cmpText cs ds :=
  reads_callBoth hself hh hother hh' fun _ _ _ _ hu hv => Machine.At.reads_cmp hg hg' hu.usable hh hv.usable hh'

theorem reads_partialCmp (hg : Stored N g o cs) (hg' : Stored N g o' ds)
    (hself : Usable b T self o (o + N + 1)) (hh : o + N + 1 ≤ total)
    (hother : Usable b T other o' (o' + N + 1)) (hh' : o' + N + 1 ≤ total) :
    Reads L b B total g (partialCmp o self o' other : M (Mem R N) ε (Option Ordering)) T P
      fun r _ => r = some (Spec.cmpText cs ds) :=
  reads_callBoth hself hh hother hh' fun _ _ _ _ hu hv =>
    reads_bind (reads_cmp hg hg' hu.usable hh hv.usable hh') fun _ _ _ h => reads_pure (by rw [h])

theorem reads_compared {yes : Option Ordering → Bool} (hg : Stored N g o cs) (hg' : Stored N g o' ds)
    (hself : Usable b T self o (o + N + 1)) (hh : o + N + 1 ≤ total)
    (hother : Usable b T other o' (o' + N + 1)) (hh' : o' + N + 1 ≤ total) :
    Reads L b B total g (compared yes o self o' other : M (Mem R N) ε Bool) T P
      fun r _ => r = yes (some (Spec.cmpText cs ds)) :=
  reads_callBoth hself hh hother hh' fun _ _ _ _ hu hv =>
    reads_bind (reads_partialCmp hg hg' hu.usable hh hv.usable hh') fun _ _ _ h => reads_pure (by rw [h])

theorem reads_debug (hg : Stored N g o cs) (hself : Usable b T self o (o + N + 1)) (hh : o + N + 1 ≤ total) :
    Reads L b B total g (debug o self : M (Mem R N) ε (Bytes × UInt8)) T P
      fun r _ => r.1 = utf8 cs ∧ r.2.toNat = byteLen cs :=
  reads_call hself hh fun _ _ _ _ hc => reads_call hc.usable hh fun _ _ _ _ hc =>
    Machine.At.reads_debug hg hc.usable hh

theorem reads_serialize (hg : Stored N g o cs) (hself : Usable b T self o (o + N + 1)) (hh : o + N + 1 ≤ total) :
    Reads L b B total g (serialize o self : M (Mem R N) ε Bytes) T P fun r _ => r = utf8 cs :=
  reads_call hself hh fun _ _ _ _ hc => Machine.At.reads_serialize hg hc.usable hh

theorem reads_toSqlRef (hg : Stored N g o cs) (hself : Usable b T self o (o + N + 1)) (hh : o + N + 1 ≤ total) :
    Reads L b B total g (toSqlRef o self : M (Mem R N) ε (Tag × Nat)) T P (RefAt o (byteLen cs)) :=
  reads_callRef hself hh hg.fits fun _ _ _ _ hc => Machine.At.reads_toSqlRef hg hc.usable hh

theorem reads_toSql (hg : Stored N g o cs) (hself : Usable b T self o (o + N + 1)) (hh : o + N + 1 ≤ total) :
    Reads L b B total g (toSql o self : M (Mem R N) ε Bytes) T P fun r _ => r = utf8 cs :=
  reads_refAt hg hh (reads_toSqlRef hg hself hh)

end Verif.Machine.Cache.At
