import Verif.Spec.Text
import Verif.Spec.Holds
import Verif.Spec.Trim
import Verif.Spec.Iter
import Verif.Spec.Utf16
import Verif.Spec.Order
import Verif.Spec.Retain
import Verif.Model.Rust
import Verif.Model.Str
import Verif.Model.Error
import Verif.Model.ArrayString
import Verif.Model.Fmt
import Verif.Model.Traits
import Verif.Proofs.Ops
import Verif.Proofs.Trim
import Verif.Proofs.Iter
import Verif.Proofs.Utf16
import Verif.Proofs.Order
import Verif.Proofs.Traits
import Verif.Spec.Range
import Verif.Spec.Endless
import Verif.Spec.Deque
import Verif.Spec.Index
import Verif.Proofs.Range
import Verif.Proofs.Endless
import Verif.Props.Sample
import Verif.Props.Mutators
import Verif.Props.Constructors
import Verif.Spec.Fmt
import Verif.Props.Traits
import Verif.Spec.History
import Verif.Model.History
import Verif.Proofs.History
import Verif.Props.History
import Verif.Model.CacheString
import Verif.Spec.Debug
import Verif.Props.CacheString
import Verif.Props.Debug
import Verif.Model.Integration
import Verif.Model.Json
import Verif.Props.Integration
import Verif.Model.Layout
import Verif.Props.Layout
import Verif.Spec.Store
import Verif.Model.Store
import Verif.Props.Store
import Verif.Spec.StdString
import Verif.Props.StdString
import Verif.Model.CoreStr
import Verif.Proofs.CoreStr
import Verif.Props.CoreStr
import Verif.Model.Logs
import Verif.Spec.Logs
import Verif.Proofs.Logs
import Verif.Props.Logs
import Verif.Proofs.LogsWorld
import Verif.Spec.AsRef
import Verif.Proofs.AsRef
import Verif.Props.AsRef
import Verif.Model.DrainIter
import Verif.Spec.DrainIter
import Verif.Proofs.DrainIter
import Verif.Props.DrainIter
import Verif.Model.Borrow
import Verif.Model.BorrowCalls
import Verif.Model.BorrowOps
import Verif.Model.BorrowCache
import Verif.Model.Footprint
import Verif.Proofs.Borrow
import Verif.Proofs.BorrowRun
import Verif.Proofs.BorrowCalls
import Verif.Proofs.BorrowOps
import Verif.Proofs.BorrowCache
import Verif.Proofs.Footprint
import Verif.Proofs.FootprintOps
import Verif.Proofs.FootprintErase
import Verif.Proofs.FootprintText
import Verif.Props.Borrow
import Verif.Props.BorrowOps
import Verif.Props.BorrowCache
import Verif.Props.Footprint
import Verif.Props.FootprintText
import Verif.Spec.Client
import Verif.Model.Client
import Verif.Proofs.Client
import Verif.Proofs.ClientRun
import Verif.Props.Client
import Verif.Model.Threads
import Verif.Proofs.Threads
import Verif.Proofs.ThreadsAlone
import Verif.Proofs.ThreadsRun
import Verif.Props.Threads
import Verif.Tests.Doc
import Verif.Model.BorrowOuter
import Verif.Proofs.BorrowOuter
import Verif.Props.BorrowOuter
import Verif.Model.DebugStr
import Verif.Spec.DebugStr
import Verif.Proofs.DebugStr
import Verif.Props.DebugStr
import Verif.Props.DocExamples
import Verif.Spec.Mixed
import Verif.Model.Mixed
import Verif.Proofs.Mixed
import Verif.Props.Mixed
import Verif.Spec.Parity
import Verif.Model.Parity
import Verif.Props.Parity
import Verif.Model.Machine
import Verif.Proofs.Machine
import Verif.Proofs.MachineReplace
import Verif.Proofs.MachineCalls
import Verif.Proofs.MachineMethods
import Verif.Proofs.MachineOps
import Verif.Props.Machine
import Verif.Model.MachineCache
import Verif.Proofs.MachineCache
import Verif.Props.MachineCache
import Verif.Spec.Several
import Verif.Model.MachineMany
import Verif.Proofs.MachineMany
import Verif.Props.MachineMany
import Verif.Model.MachineCacheMany
import Verif.Proofs.MachineCacheMany
import Verif.Props.MachineCacheMany
import Verif.Spec.Lend
import Verif.Model.MachineLend
import Verif.Proofs.MachineLend
import Verif.Props.MachineLend
import Verif.Model.MachineChars
import Verif.Proofs.MachineScan
import Verif.Proofs.BorrowChars
import Verif.Proofs.MachineChars
import Verif.Props.MachineChars
import Verif.Model.MachineCacheChars
import Verif.Proofs.MachineCacheChars
import Verif.Props.MachineCacheChars
