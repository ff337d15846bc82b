import Verif.Go.Basic
import Verif.Go.EComp
import Verif.Go.Segments
import Verif.Fn.Props
import Verif.Fn.Float
import Verif.Iter.Chan
import Verif.Iter.Props
import Verif.Iter.PullProps
import Verif.Iter.PullMany
import Verif.Slice.Props
import Verif.Slice.Calls
import Verif.Slice.Raise
import Verif.PQ.Props
import Verif.PQ.Calls
import Verif.PQ.Raise
import Verif.PQ.RaiseOk
import Verif.Queue.Props
import Verif.Queue.ConcProps
import Verif.LinkedList.Props
import Verif.LinkedList.Live
import Verif.LinkedList.LiveSplit
import Verif.Stream.Props
import Verif.Stream.ParFold
import Verif.Stream.ParCollect
import Verif.Stream.ParTry
import Verif.Stream.ParCount
import Verif.Stream.Terminal
import Verif.SkipList.Props
import Verif.SkipList.RangeProps
import Verif.SkipList.IterEdit
import Verif.SkipList.Towers
import Verif.SkipList.TowerProps
import Verif.SkipList.Rows
import Verif.SkipList.Levels
import Verif.SkipList.Calls
import Verif.SkipList.Average
import Verif.SkipList.AnyModel
import Verif.SkipList.AnyLemmas
import Verif.SkipList.AnySteps
import Verif.SkipList.AnyCalls
import Verif.SkipList.AnyProps
import Verif.SkipList.AnyPure
import Verif.SkipList.LiveSplit
import Verif.SkipList.Raise
import Verif.DelayQueue.Props
import Verif.DelayQueue.Many
import Verif.DelayQueue.Raise
import Verif.Hasher.Props
import Verif.Hasher.XXH64
import Verif.Hasher.Conform
import Verif.Hasher.Word
import Verif.SortedSet.Props
import Verif.RBTree.Model
import Verif.RBTree.Shape
import Verif.RBTree.Rotate
import Verif.RBTree.Balance
import Verif.RBTree.Put
import Verif.RBTree.Del
import Verif.RBTree.Walk
import Verif.RBTree.Edit
import Verif.RBTree.Buffer
import Verif.RBTree.Ops
import Verif.RBTree.Refine
import Verif.RBTree.Sim
import Verif.RBTree.History
import Verif.RBTree.Props
import Verif.RBTree.Split
import Verif.RBTree.Ends
import Verif.RBTree.Sound
import Verif.RBTree.Nav
import Verif.RBTree.IterEdit
import Verif.RBTree.Loss
import Verif.RBTree.Effect
import Verif.RBTree.Anchor
import Verif.RBTree.Break
import Verif.RBTree.FSpec
import Verif.RBTree.Paint
import Verif.RBTree.Exact
import Verif.RBTree.Panics
import Verif.RBTree.Handles
import Verif.RBTree.Calls
import Verif.RBTree.LiveSplit
import Verif.RBTree.Raise
import Verif.RBTree.SetCompare
import Verif.BPlus.Model
import Verif.BPlus.Loops
import Verif.BPlus.Abs
import Verif.BPlus.Split
import Verif.BPlus.Insert
import Verif.BPlus.Root
import Verif.BPlus.Search
import Verif.BPlus.Del
import Verif.BPlus.Shift
import Verif.BPlus.Delete
import Verif.BPlus.DeleteRoot
import Verif.BPlus.Spec
import Verif.BPlus.Ops
import Verif.BPlus.Hist
import Verif.BPlus.Least
import Verif.BPlus.Eval
import Verif.BPlus.Props
import Verif.BPlus.Props2
import Verif.BPlus.Damage
import Verif.BPlus.Order
import Verif.BPlus.Tight
import Verif.BPlus.Exact
import Verif.BPlus.FSpec
import Verif.BPlus.View
import Verif.BPlus.ViewInsert
import Verif.BPlus.ViewShift
import Verif.BPlus.ViewDelete
import Verif.BPlus.Predict
import Verif.BPlus.HistExact
import Verif.BPlus.NoPanic
import Verif.BPlus.Ptr
import Verif.BPlus.Calls
import Verif.BPlus.CallsDel
import Verif.BPlus.CallsProps
import Verif.BPlus.Raise
import Verif.BPlus.RaiseOk
import Verif.LockFree.Model
import Verif.LockFree.Spec
import Verif.LockFree.Inv
import Verif.LockFree.Evo
import Verif.LockFree.Frame
import Verif.LockFree.Trace
import Verif.LockFree.Moves
import Verif.LockFree.Run
import Verif.LockFree.Lin
import Verif.LockFree.Count
import Verif.LockFree.Progress
import Verif.LockFree.Tick
import Verif.LockFree.LockFree
import Verif.LockFree.Elements
import Verif.LockFree.Sched
import Verif.LockFree.Props
import Verif.LockFree.Examples
import Verif.Stream.New
import Verif.Stream.ParPipe
import Verif.Stream.Containers
import Verif.Stream.ParExact
import Verif.Stream.ParChain
import Verif.Stream.TreeAny
import Verif.Stream.ParTryExact
import Verif.Stream.Story
import Verif.Stream.StoryOps
import Verif.Stream.StoryPlays
import Verif.Stream.Total
import Verif.Stream.Effects
import Verif.Stream.ParEffects
import Verif.Stream.ParEffectsPool
import Verif.Stream.ParEffectsProps
import Verif.Stream.ParEffectsExact
import Verif.Stream.ParTryEffects
import Verif.Stream.ParTryEffectsProps
import Verif.Stream.ParTryEffectsMatch
import Verif.Stream.ParTryEffectsRuns
import Verif.LockFree.Rank
import Verif.LockFree.RankEx
import Verif.LockFree.Raise
import Verif.Reinit
import Verif.NaN
