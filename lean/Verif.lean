import Verif.Model.BTree
import Verif.Model.Buffer
import Verif.Model.Collect
import Verif.Model.Debug
import Verif.Model.DebugActions
import Verif.Model.Dot
import Verif.Model.DotPanics
import Verif.Model.DotShared
import Verif.Model.Earley
import Verif.Model.EarleyProg
import Verif.Model.Effects
import Verif.Model.Examples
import Verif.Model.Firsts
import Verif.Model.Fleet
import Verif.Model.Grammar
import Verif.Model.Hash
import Verif.Model.Lalr
import Verif.Model.Lock
import Verif.Model.Machine
import Verif.Model.Mergeables
import Verif.Model.Name
import Verif.Model.NonNull
import Verif.Model.Nullable
import Verif.Model.Orders
import Verif.Model.Pass
import Verif.Model.Poison
import Verif.Model.Pretty
import Verif.Model.Refs
import Verif.Model.Res
import Verif.Model.Start
import Verif.Model.State
import Verif.Model.TokenStream
import Verif.Model.Tree
import Verif.Model.TypeMap
import Verif.Model.Utils
import Verif.Proof.Ambiguity
import Verif.Proof.BTree
import Verif.Proof.Buffer
import Verif.Proof.Calls
import Verif.Proof.Canon
import Verif.Proof.CanonClose
import Verif.Proof.CanonPass
import Verif.Proof.CanonReads
import Verif.Proof.CanonRun
import Verif.Proof.CanonSim
import Verif.Proof.Cfg
import Verif.Proof.CmpClass
import Verif.Proof.CollectMap
import Verif.Proof.CollectOps
import Verif.Proof.Debug
import Verif.Proof.DebugActions
import Verif.Proof.Dot
import Verif.Proof.DotShared
import Verif.Proof.DotText
import Verif.Proof.EarleyClose
import Verif.Proof.EarleyComplete
import Verif.Proof.EarleyHistory
import Verif.Proof.EarleyItems
import Verif.Proof.EarleyLoop
import Verif.Proof.EarleyLoose
import Verif.Proof.EarleyMix
import Verif.Proof.EarleyParse
import Verif.Proof.EarleyProg
import Verif.Proof.EarleyRun
import Verif.Proof.EarleySpan
import Verif.Proof.EarleyStart
import Verif.Proof.EarleyStep
import Verif.Proof.EarleyTree
import Verif.Proof.EarleyWork
import Verif.Proof.Effects
import Verif.Proof.Extend
import Verif.Proof.Firsts
import Verif.Proof.Fleet
import Verif.Proof.Follows
import Verif.Proof.Forest
import Verif.Proof.ForestIso
import Verif.Proof.Grammar
import Verif.Proof.GrammarBuild
import Verif.Proof.History
import Verif.Proof.KeyClass
import Verif.Proof.Keys
import Verif.Proof.KeysExact
import Verif.Proof.KeysExactParse
import Verif.Proof.KeysExactReads
import Verif.Proof.LL1Null
import Verif.Proof.Lalr
import Verif.Proof.LalrRounds
import Verif.Proof.LalrState
import Verif.Proof.Layout
import Verif.Proof.Mix
import Verif.Proof.NonNull
import Verif.Proof.NonNullTree
import Verif.Proof.Nullable
import Verif.Proof.NullableSpec
import Verif.Proof.Pass
import Verif.Proof.PoisonParse
import Verif.Proof.Preorder
import Verif.Proof.Pretty
import Verif.Proof.ProgRel
import Verif.Proof.Rename
import Verif.Proof.RenameGrammar
import Verif.Proof.RenameParse
import Verif.Proof.RenameReads
import Verif.Proof.Reordered
import Verif.Proof.Replay
import Verif.Proof.RightCut
import Verif.Proof.RightNull
import Verif.Proof.Rounds
import Verif.Proof.Sentential
import Verif.Proof.SharedRun
import Verif.Proof.Sim
import Verif.Proof.Start
import Verif.Proof.State
import Verif.Proof.Tree
import Verif.Proof.Utf8
import Verif.Proof.Utils
import Verif.Proof.Values
import Verif.Proof.Walk
import Verif.Proof.WorkBound
import Verif.Proof.WorkOnce
import Verif.Props.Accessors
import Verif.Props.Buffer
import Verif.Props.Builder
import Verif.Props.Collect
import Verif.Props.Compose
import Verif.Props.Cost
import Verif.Props.CostSharp
import Verif.Props.CutCount
import Verif.Props.Debug
import Verif.Props.DebugActions
import Verif.Props.Dot
import Verif.Props.DotPanics
import Verif.Props.DotShared
import Verif.Props.Earley
import Verif.Props.EarleyExamples
import Verif.Props.EarleyHistory
import Verif.Props.Effects
import Verif.Props.Exact
import Verif.Props.Examples
import Verif.Props.Extend
import Verif.Props.Factored
import Verif.Props.Fails
import Verif.Props.Firsts
import Verif.Props.Fleet
import Verif.Props.Fmt
import Verif.Props.Forest
import Verif.Props.Grammar
import Verif.Props.Hash
import Verif.Props.Keys
import Verif.Props.KeysLike
import Verif.Props.KeysTell
import Verif.Props.LL1
import Verif.Props.LL1Null
import Verif.Props.Lalr
import Verif.Props.LalrContext
import Verif.Props.LalrExamples
import Verif.Props.LalrRun
import Verif.Props.Lock
import Verif.Props.Machine
import Verif.Props.Mergeables
import Verif.Props.Mix
import Verif.Props.Name
import Verif.Props.NonNull
import Verif.Props.NonNullPasses
import Verif.Props.NonNullTree
import Verif.Props.Nullable
import Verif.Props.OneTree
import Verif.Props.Orders
import Verif.Props.Pass
import Verif.Props.Pipeline
import Verif.Props.Poison
import Verif.Props.Pretty
import Verif.Props.Refs
import Verif.Props.Rename
import Verif.Props.RenameLalr
import Verif.Props.RenamePasses
import Verif.Props.RepoTests
import Verif.Props.Right
import Verif.Props.RightCut
import Verif.Props.RightNull
import Verif.Props.SameForest
import Verif.Props.Shared
import Verif.Props.Start
import Verif.Props.StartParse
import Verif.Props.StartTree
import Verif.Props.State
import Verif.Props.Strings
import Verif.Props.TokenStream
import Verif.Props.TreeCount
import Verif.Props.TypeMap
import Verif.Props.Utils
import Verif.Props.Values
import Verif.Props.Walk
import Verif.Props.Work
import Verif.Props.WorkNull
import Verif.Props.WorkOnce
import Verif.Props.WrappedPasses
import Verif.Props.WriteLock
import Verif.Spec.Api
import Verif.Spec.Buffer
import Verif.Spec.Cfg
import Verif.Spec.Compose
import Verif.Spec.Debug
import Verif.Spec.DebugActions
import Verif.Spec.Decl
import Verif.Spec.Dot
import Verif.Spec.DotPanics
import Verif.Spec.DotShared
import Verif.Spec.Earley
import Verif.Spec.Effects
import Verif.Spec.Extend
import Verif.Spec.Factored
import Verif.Spec.Fails
import Verif.Spec.Fmt
import Verif.Spec.Follow
import Verif.Spec.Forest
import Verif.Spec.Keys
import Verif.Spec.LL1
import Verif.Spec.LL1Null
import Verif.Spec.Lalr
import Verif.Spec.LalrRun
import Verif.Spec.Mix
import Verif.Spec.NonNull
import Verif.Spec.NonNullTree
import Verif.Spec.Orders
import Verif.Spec.Pass
import Verif.Spec.Pretty
import Verif.Spec.Refs
import Verif.Spec.Rename
import Verif.Spec.RenameLalr
import Verif.Spec.Right
import Verif.Spec.RightCut
import Verif.Spec.RightNull
import Verif.Spec.SameForest
import Verif.Spec.Start
import Verif.Spec.StartParse
import Verif.Spec.StartTree
import Verif.Spec.State
import Verif.Spec.Strings
import Verif.Spec.Tree
import Verif.Spec.Values
import Verif.Spec.Walk
import Verif.Spec.Work
import Verif.Spec.WorkNull
import Verif.Spec.WrappedPasses
