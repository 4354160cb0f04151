import Verif.Prelude
import Verif.Spec.Order
import Verif.Spec.Lists
import Verif.Seq.Heap
import Verif.Seq.Spec
import Verif.Seq.HeapLemmas
import Verif.Seq.Fam
import Verif.Seq.Prims
import Verif.Seq.Sort
import Verif.Seq.SortLemmas
import Verif.Seq.Index
import Verif.Seq.IndexLemmas
import Verif.Seq.AlgoLemmas
import Verif.Props.Seq
import Verif.Rnd.Model
import Verif.Rnd.Spec
import Verif.Rnd.Lemmas
import Verif.Rnd.Cycles
import Verif.Rnd.Ops
import Verif.Rnd.Algo
import Verif.Rnd.Algo2
import Verif.Rnd.LoadLemmas
import Verif.Rnd.History
import Verif.Props.Rnd
import Verif.Spec.Lookup
import Verif.Ord.Heap
import Verif.Ord.Tree
import Verif.Ord.Zipper
import Verif.Ord.Rot
import Verif.Ord.Step
import Verif.Ord.Insert
import Verif.Ord.Link
import Verif.Ord.ExtractFix
import Verif.Ord.Extract
import Verif.Ord.Extract2
import Verif.Ord.Extract3
import Verif.Ord.Extract4
import Verif.Ord.Search
import Verif.Ord.SearchLemmas
import Verif.Ord.PointLemmas
import Verif.Ord.RankLemmas
import Verif.Ord.LookupLemmas
import Verif.Ord.Bits
import Verif.Ord.History
import Verif.Props.Ord
import Verif.Spec.Hash
import Verif.Spec.Perm
import Verif.Hash.Heap
import Verif.Hash.Rep
import Verif.Hash.Loc
import Verif.Hash.Unlink
import Verif.Hash.UnlinkSpec
import Verif.Hash.UnlinkSpec2
import Verif.Hash.Ring
import Verif.Hash.Ring2
import Verif.Hash.Index
import Verif.Hash.Table
import Verif.Hash.Trav
import Verif.Hash.Lookup
import Verif.Hash.Move
import Verif.Hash.Rehash
import Verif.Hash.Rehash2
import Verif.Hash.InPlace
import Verif.Hash.InPlace2
import Verif.Hash.Ops
import Verif.Hash.Sizes
import Verif.Hash.Load
import Verif.Hash.Float
import Verif.Hash.LoadError
import Verif.Hash.Equals
import Verif.Hash.History
import Verif.Props.Hash
import Verif.Props.HashLoad
import Verif.Cont.Layer
import Verif.Cont.Spec
import Verif.Cont.LayerLemmas
import Verif.Cont.Cascade
import Verif.Cont.Place
import Verif.Cont.PlaceLemmas
import Verif.Cont.CascadeSpec
import Verif.Cont.CascadeLemmas
import Verif.Cont.RollbackLemmas
import Verif.Cont.Delete
import Verif.Cont.DeleteLemmas
import Verif.Cont.Container
import Verif.Cont.World
import Verif.Cont.State
import Verif.Cont.State2
import Verif.Cont.State3
import Verif.Cont.WorldInv
import Verif.Cont.StepInv
import Verif.Cont.Reach
import Verif.Cont.Effect
import Verif.Cont.EffectLemmas
import Verif.Cont.EffectLemmas2
import Verif.Cont.Example
import Verif.Props.Cont
import Verif.Cont.Api
import Verif.Cont.ApiSpec
import Verif.Cont.ApiLemmas
import Verif.Cont.ApiLemmas2
import Verif.Cont.ApiLemmas3
import Verif.Cont.ApiLemmas4
import Verif.Cont.HostExample
import Verif.Props.ContApi
import Verif.Cont.ListApi
import Verif.Cont.ListSpec
import Verif.Cont.ListLemmas
import Verif.Cont.ListLemmas2
import Verif.Cont.ListLemmas3
import Verif.Props.ContList
import Verif.Spec.Sift
import Verif.Rnd.SiftLemmas
import Verif.Cont.SiftApi
import Verif.Cont.SiftLemmas
import Verif.Cont.MergeLemmas
import Verif.Props.ContSift
import Verif.Props.ContMerge
import Verif.Spec.Lex
import Verif.Key.Composite
import Verif.Key.Lemmas
import Verif.Props.Key
import Verif.Cont.Compare
import Verif.Cont.CompareLemmas
import Verif.Props.Compare
import Verif.Ser.Matcher
import Verif.Ser.MatcherLemmas
import Verif.Props.Ser
import Verif.Ser.Stream
import Verif.Ser.StreamLemmas
import Verif.Ser.Replay
import Verif.Ser.Archive
import Verif.Ser.DupLemmas
import Verif.Ser.LoadLemmas
import Verif.Ser.LoadLemmas2
import Verif.Ser.RoundTrip
import Verif.Ser.RoundTrip2
import Verif.Props.SerLoad
import Verif.Cont.CopyModel
import Verif.Seq.CopyLemmas
import Verif.Rnd.CopyLemmas
import Verif.Ord.CopyLemmas
import Verif.Hash.CopyLemmas
import Verif.Cont.Copy
import Verif.Cont.CopyLemmas
import Verif.Cont.Swap
import Verif.Cont.SwapLemmas
import Verif.Cont.Assign
import Verif.Cont.AssignLemmas
import Verif.Props.CopyMove
import Verif.Alloc.Model
import Verif.Alloc.Lemmas
import Verif.Props.Allocators
import Verif.Safe.Registry
import Verif.Safe.RegistryLemmas
import Verif.Safe.Model
import Verif.Safe.Chains
import Verif.Safe.Spec
import Verif.Safe.Fate
import Verif.Safe.FateStep
import Verif.Safe.Reach
import Verif.Safe.Example
import Verif.Props.Safe
import Verif.Safe.Checks
import Verif.Safe.ChecksSpec
import Verif.Safe.ChecksLemmas
import Verif.Props.SafeChecks
import Verif.Safe.ErrorSpec
import Verif.Props.SafeErrors
import Verif.Hash.Local
import Verif.Ord.Check
import Verif.Cont.Check
import Verif.Cont.CheckLemmas
import Verif.Props.Check
import Verif.Props.Local
import Verif.Props.Rejected
import Verif.Mt.Spec
import Verif.Mt.Model
import Verif.Mt.Logic
import Verif.Mt.Wp
import Verif.Mt.Sound
import Verif.Mt.Calls
import Verif.Mt.Ops
import Verif.Mt.Inv
import Verif.Mt.Locks
import Verif.Mt.Play
import Verif.Mt.Ends
import Verif.Props.Threads
import Verif.Spec.Calls
import Verif.Ord.Calls
import Verif.Ord.CallsLemmas
import Verif.Props.Costs
import Verif.Rnd.PriceSpec
import Verif.Rnd.Writes
import Verif.Rnd.WritesLemmas
import Verif.Props.RndCosts
import Verif.Spec.Distinct
import Verif.Hash.Calls
import Verif.Hash.CallsLemmas
import Verif.Props.HashCosts
import Verif.Hash.Grow
import Verif.Hash.GrowLemmas
import Verif.Props.HashGrow
import Verif.Props.SerIter
import Verif.Ord.Steps
import Verif.Ord.Pot
import Verif.Ord.StepsLemmas
import Verif.Ord.Acts
import Verif.Ord.ActsSpec
import Verif.Ord.ActsLemmas
import Verif.Ord.ActsLemmas2
import Verif.Ord.ActsLemmas3
import Verif.Ord.ActsHard
import Verif.Cont.OrdTime
import Verif.Cont.FillTime
import Verif.Props.OrdCosts
import Verif.Props.Lookups
import Verif.Key.Extract
import Verif.Props.ModifyKey
import Verif.Rnd.Iter
import Verif.Spec.Runs
import Verif.Cont.Calls
import Verif.Cont.CallsLemmas
import Verif.Cont.CallsLemmas2
import Verif.Cont.CallsLemmas3
import Verif.Cont.CallsLemmas4
import Verif.Cont.CallBound
import Verif.Cont.CallsLemmas5
import Verif.Cont.CallsLemmas6
import Verif.Cont.CallsLemmas7
import Verif.Props.Throws
import Verif.Ord.RankSteps
import Verif.Ord.RankStepsLemmas
import Verif.Props.RankCosts
import Verif.Hash.Steps
import Verif.Hash.StepsLemmas
import Verif.Props.HashTimes
import Verif.Cont.CopySteps
import Verif.Cont.CopyStepsLemmas
import Verif.Props.CopyCosts
import Verif.Cont.Twin
import Verif.Cont.TwinLemmas
import Verif.Cont.TwinStep
import Verif.Cont.TwinStep2
import Verif.Cont.TwinStep3
import Verif.Cont.TwinRejected
import Verif.Props.Twin
import Verif.Spec.Always
import Verif.Ord.AnyLemmas
import Verif.Ord.AnyLookup
import Verif.Hash.AnyLemmas
import Verif.Cont.Shadow
import Verif.Cont.AnyCascade
import Verif.Cont.AnyCont
import Verif.Cont.Wild
import Verif.Cont.AnyWorld
import Verif.Cont.AnyStep
import Verif.Props.Wild
import Verif.Cont.Ideal
import Verif.Cont.IdealLemmas
import Verif.Cont.IdealStep
import Verif.Cont.IdealStep2
import Verif.Props.Ideal
import Verif.Cont.IdealSort
import Verif.Cont.RefApi
import Verif.Cont.RefLemmas
import Verif.Props.ContRef
import Verif.Cont.Promote
import Verif.Props.Promote
import Verif.Cont.Ask
import Verif.Cont.IdealAsk
import Verif.Cont.AskLemmas
import Verif.Cont.AskProof
import Verif.Props.Ask
import Verif.Cont.Move
import Verif.Cont.MoveLemmas
import Verif.Props.Move
import Verif.Cont.DeleteSteps
import Verif.Props.Destroy
import Verif.Cont.PlaceCalls
import Verif.Cont.PlaceCallsLemmas
import Verif.Ser.LoadCalls
import Verif.Ser.LoadCallsLemmas
import Verif.Ser.LoadCallsHonest
import Verif.Props.LoadCalls
import Verif.Seq.Steps
import Verif.Seq.StepsLemmas
import Verif.Cont.ListSteps
import Verif.Props.SeqCosts
import Verif.Ord.Fill
import Verif.Props.RangeCosts
import Verif.Meta.Model
import Verif.Meta.Spec
import Verif.Meta.Lemmas
import Verif.Props.Tags
import Verif.Meta.Key
import Verif.Props.KeyAlias
import Verif.Ser.Temp
import Verif.Ser.TempSpec
import Verif.Ser.TempLemmas
import Verif.Props.LoadTemps
import Verif.Ser.SaveCost
import Verif.Ser.SaveSpec
import Verif.Ser.SaveCostLemmas
import Verif.Ser.LoadCost
import Verif.Ser.LoadCostLemmas
import Verif.Props.SaveCosts
import Verif.Ser.OldIter
import Verif.Props.OldIter
import Verif.Guard.Model
import Verif.Guard.Spec
import Verif.Guard.Lemmas
import Verif.Props.Guards
import Verif.Cont.Project
import Verif.Cont.ProjectSpec
import Verif.Props.Project
import Verif.Key.StdTuple
import Verif.Props.StdTuple
import Verif.Ser.Head
import Verif.Props.Heads
import Verif.Props.Step
import Verif.Meta.Transparent
import Verif.Meta.TransparentSpec
import Verif.Props.Transparent
import Verif.Ord.Chosen
import Verif.Props.Packing
