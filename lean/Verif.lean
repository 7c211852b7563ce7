import Verif.Conc.Calls
import Verif.Conc.Inv
import Verif.Conc.Lemmas
import Verif.Conc.Main
import Verif.Conc.Makes
import Verif.Conc.Model
import Verif.Conc.Refine
import Verif.Conc.Rely
import Verif.Conc.Sched
import Verif.Cost.Alloc
import Verif.Cost.Hash
import Verif.Cost.HashModel
import Verif.Cost.Main
import Verif.Cost.Model
import Verif.Cost.Ops
import Verif.Cost.Own
import Verif.Cost.Size
import Verif.Cost.Total
import Verif.Debug.Checked
import Verif.Debug.Common
import Verif.Debug.Diff
import Verif.Debug.Display
import Verif.Debug.Errors
import Verif.Debug.Query
import Verif.Debug.Stats
import Verif.Debug.StatsShow
import Verif.Debug.SubsetText
import Verif.Debug.Text
import Verif.Debug.TrieText
import Verif.Debug.TrieTextLemmas
import Verif.Float.Lemmas
import Verif.Float.Model
import Verif.Float.Ops
import Verif.Hash.Inj
import Verif.Hash.Model
import Verif.KernelRfl
import Verif.Nibbles.Checked
import Verif.Nibbles.Lemmas
import Verif.Nibbles.Lemmas2
import Verif.Nibbles.Lemmas3
import Verif.Nibbles.Model
import Verif.Props.Adaptive
import Verif.Props.Alloc
import Verif.Props.Base
import Verif.Props.Batch
import Verif.Props.Build
import Verif.Props.Cases
import Verif.Props.Chain
import Verif.Props.ChainOps
import Verif.Props.Commit
import Verif.Props.Commute
import Verif.Props.Conc
import Verif.Props.Contents
import Verif.Props.Cost
import Verif.Props.Cut
import Verif.Props.Deref
import Verif.Props.Diff
import Verif.Props.Display
import Verif.Props.DisplayMore
import Verif.Props.Errors
import Verif.Props.Exact
import Verif.Props.HashTotal
import Verif.Props.Hashing
import Verif.Props.IterCatch
import Verif.Props.Join
import Verif.Props.KeyConv
import Verif.Props.Keys
import Verif.Props.KeysExact
import Verif.Props.Lazy
import Verif.Props.Light
import Verif.Props.LightDelete
import Verif.Props.Linear
import Verif.Props.Long
import Verif.Props.MapOps
import Verif.Props.Nest
import Verif.Props.Order
import Verif.Props.PanicKinds
import Verif.Props.Panics
import Verif.Props.Profiles
import Verif.Props.Query
import Verif.Props.Reads
import Verif.Props.Rebuild
import Verif.Props.Receive
import Verif.Props.Reference
import Verif.Props.Replay
import Verif.Props.Rollback
import Verif.Props.Serde
import Verif.Props.Shared
import Verif.Props.Size
import Verif.Props.Stale
import Verif.Props.Stats
import Verif.Props.StatsPrint
import Verif.Props.StatsText
import Verif.Props.Subsets
import Verif.Props.TrieText
import Verif.Props.TwoViews
import Verif.Props.Values
import Verif.Props.Witness
import Verif.Rust
import Verif.Serde.Exact
import Verif.Serde.Lemmas
import Verif.Serde.Live
import Verif.Serde.Load
import Verif.Serde.Model
import Verif.Serde.Untrusted
import Verif.Spec.Build
import Verif.Spec.Bytes
import Verif.Spec.Canon
import Verif.Spec.Cut
import Verif.Spec.Effect
import Verif.Spec.Elide
import Verif.Spec.Exact
import Verif.Spec.Hidden
import Verif.Spec.Keys
import Verif.Spec.Loaded
import Verif.Spec.Lookup
import Verif.Spec.Map
import Verif.Spec.Nodes
import Verif.Spec.Order
import Verif.Spec.Over
import Verif.Spec.Path
import Verif.Spec.Program
import Verif.Spec.ReadFrom
import Verif.Spec.Rebuild
import Verif.Spec.Received
import Verif.Spec.Replay
import Verif.Spec.Rlp
import Verif.Spec.View
import Verif.Spec.Witness
import Verif.Spec.YP
import Verif.Subset.Batch
import Verif.Subset.Carried
import Verif.Subset.Cut
import Verif.Subset.Flags
import Verif.Subset.Join
import Verif.Subset.Marks
import Verif.Subset.Model
import Verif.Subset.Mono
import Verif.Subset.Nest
import Verif.Subset.Sim
import Verif.Subset.View
import Verif.Sys.BuildModel
import Verif.Sys.Calls
import Verif.Sys.Catch
import Verif.Sys.CatchModel
import Verif.Sys.CellSteps
import Verif.Sys.Cells
import Verif.Sys.Checked
import Verif.Sys.Live
import Verif.Sys.LiveInv
import Verif.Sys.Main
import Verif.Sys.Mode
import Verif.Sys.Model
import Verif.Sys.Nodes
import Verif.Sys.Over
import Verif.Sys.Pure
import Verif.Sys.Refine
import Verif.Sys.Reps
import Verif.Sys.Safe
import Verif.Sys.Spec
import Verif.Sys.Views
import Verif.Tests.Hashes
import Verif.Tests.Keccak
import Verif.Tests.Keys
import Verif.Tests.Subsets
import Verif.Tests.Tries
import Verif.Trie.Abs
import Verif.Trie.CanonIff
import Verif.Trie.Checked
import Verif.Trie.CleanExact
import Verif.Trie.Commit
import Verif.Trie.DeleteExact
import Verif.Trie.EmptyVal
import Verif.Trie.ExtOK
import Verif.Trie.GetExact
import Verif.Trie.InsertExact
import Verif.Trie.ItemsAbs
import Verif.Trie.Iter
import Verif.Trie.IterCatch
import Verif.Trie.IterLazy
import Verif.Trie.IterLazyAbs
import Verif.Trie.IterSim
import Verif.Trie.Kinds
import Verif.Trie.LNode
import Verif.Trie.LongExact
import Verif.Trie.Model
import Verif.Trie.Opaque
import Verif.Trie.Plain
import Verif.Trie.Prog
import Verif.Trie.Rebuild
import Verif.Trie.RlpNode
import Verif.Trie.Sim
import Verif.Trie.Sim2
import Verif.Trie.Strand
import Verif.Trie.UndoExact
import Verif.Trie.Unique
import Verif.Trie.Values
import Verif.Trie.ViewOps
import Verif.Trie.YP
