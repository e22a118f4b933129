import Verif.Lemmas.Basic
import Verif.Lemmas.Completeness
import Verif.Lemmas.Conversion
import Verif.Lemmas.Dump
import Verif.Lemmas.DumpCoh
import Verif.Lemmas.DumpInv
import Verif.Lemmas.DumpObjects
import Verif.Lemmas.DumpThreads
import Verif.Lemmas.Dumping
import Verif.Lemmas.Equality
import Verif.Lemmas.Evolve
import Verif.Lemmas.EvolveObj
import Verif.Lemmas.EvolveRun
import Verif.Lemmas.Faults
import Verif.Lemmas.Fuel
import Verif.Lemmas.Lax
import Verif.Lemmas.LaxRun
import Verif.Lemmas.Load
import Verif.Lemmas.LoadObjects
import Verif.Lemmas.LoadObjectsAll
import Verif.Lemmas.LoadObjectsRun
import Verif.Lemmas.LoadObjectsStep
import Verif.Lemmas.Local
import Verif.Lemmas.LocalDump
import Verif.Lemmas.Names
import Verif.Lemmas.ObjClass
import Verif.Lemmas.Objects
import Verif.Lemmas.Pick
import Verif.Lemmas.Quiet
import Verif.Lemmas.Ref
import Verif.Lemmas.RefObj
import Verif.Lemmas.RefRun
import Verif.Lemmas.Rew
import Verif.Lemmas.SameRun
import Verif.Lemmas.Script
import Verif.Lemmas.Sem
import Verif.Lemmas.SemErr
import Verif.Lemmas.SemMono
import Verif.Lemmas.Shuffle
import Verif.Lemmas.ShuffleAll
import Verif.Lemmas.ShuffleLoop
import Verif.Lemmas.ShuffleObj
import Verif.Lemmas.ShuffleRun
import Verif.Lemmas.State
import Verif.Lemmas.Step
import Verif.Lemmas.Tags
import Verif.Lemmas.Threads
import Verif.Lemmas.ThreadsRef
import Verif.Lemmas.ThreadsSat
import Verif.Lemmas.ThreadsSeq
import Verif.Lemmas.Total
import Verif.Lemmas.Union
import Verif.Lemmas.Unique
import Verif.Model.DateTime
import Verif.Model.DumpObjects
import Verif.Model.DumpThreads
import Verif.Model.Dumper
import Verif.Model.Exceptions
import Verif.Model.Faults
import Verif.Model.Generators
import Verif.Model.LoadObjects
import Verif.Model.Loader
import Verif.Model.Monad
import Verif.Model.PyOps
import Verif.Model.Syntax
import Verif.Model.Threads
import Verif.Model.TypeChecks
import Verif.Model.World
import Verif.Props.Accepts
import Verif.Props.Casts
import Verif.Props.Complete
import Verif.Props.Completeness
import Verif.Props.Containers
import Verif.Props.Conversion
import Verif.Props.Custom
import Verif.Props.DateErrors
import Verif.Props.Dicts
import Verif.Props.Discriminator
import Verif.Props.Dispatch
import Verif.Props.Dump
import Verif.Props.DumpDispatch
import Verif.Props.DumpInside
import Verif.Props.DumpLeaves
import Verif.Props.DumpObjects
import Verif.Props.DumpOptions
import Verif.Props.DumpThreads
import Verif.Props.DumpTotal
import Verif.Props.Dumpable
import Verif.Props.Dumping
import Verif.Props.Equality
import Verif.Props.Errors
import Verif.Props.ErrorsData
import Verif.Props.Evolve
import Verif.Props.Faults
import Verif.Props.Generators
import Verif.Props.HashSeed
import Verif.Props.HashSeedLoad
import Verif.Props.Hashing
import Verif.Props.Idempotent
import Verif.Props.Json
import Verif.Props.Keys
import Verif.Props.Lax
import Verif.Props.LaxUnions
import Verif.Props.LoadObjects
import Verif.Props.Local
import Verif.Props.LocalDump
import Verif.Props.LocalOptions
import Verif.Props.Objects
import Verif.Props.Options
import Verif.Props.Order
import Verif.Props.Predicates
import Verif.Props.Prims
import Verif.Props.ReadBack
import Verif.Props.Renaming
import Verif.Props.Render
import Verif.Props.Reorder
import Verif.Props.Reuse
import Verif.Props.ReuseUser
import Verif.Props.RoundTrip
import Verif.Props.RoundTripTypes
import Verif.Props.Simple
import Verif.Props.Soundness
import Verif.Props.Stock
import Verif.Props.StockDump
import Verif.Props.StockEvolve
import Verif.Props.StockFaults
import Verif.Props.StockJson
import Verif.Props.StockOptions
import Verif.Props.StockOrder
import Verif.Props.StockUnions
import Verif.Props.Strict
import Verif.Props.Tagged
import Verif.Props.Terminates
import Verif.Props.Threads
import Verif.Props.ThreadsSound
import Verif.Props.ThreadsUser
import Verif.Props.Trace
import Verif.Props.TraceUser
import Verif.Props.UnionFresh
import Verif.Props.UnionTotal
import Verif.Props.Unions
import Verif.Props.UserOptions
import Verif.Props.Wellformed
import Verif.Props.Widen
import Verif.Sample
import Verif.Spec.Api
import Verif.Spec.Completeness
import Verif.Spec.Conversion
import Verif.Spec.Dumpable
import Verif.Spec.Dumping
import Verif.Spec.Equality
import Verif.Spec.Evolution
import Verif.Spec.HashSeed
import Verif.Spec.Hashing
import Verif.Spec.Local
import Verif.Spec.ReadBack
import Verif.Spec.Reference
import Verif.Spec.Reorder
import Verif.Spec.Shuffle
import Verif.Spec.Tags
import Verif.Spec.Values
import Verif.Spec.Wellformed
import Verif.Spec.Widen
