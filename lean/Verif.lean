import Verif.Base
import Verif.Common.Props
import Verif.Vec.Props
import Verif.Stack.Props
import Verif.Vec.Advance
import Verif.Deque.Props
import Verif.PQueue.Props
import Verif.Sort.Props
import Verif.Cbits.Props
import Verif.Cbits.Fixed
import Verif.Utf8.Props
import Verif.Utf8.ClassProps
import Verif.Csview.Props
import Verif.Cstr.Props
import Verif.Hmap.Props
import Verif.Hmap.Find
import Verif.Hmap.Stable
import Verif.Hmap.History
import Verif.Smap.Props
import Verif.Smap.Stable
import Verif.Clist.Props
import Verif.Cspan.Props
import Verif.Cspan.Print
import Verif.Random.Props
import Verif.Random.Shuffle
import Verif.Random.NormalProps
import Verif.Hash.Props
import Verif.Algo.Props
import Verif.Algo.FFilter
import Verif.Arc.Props
import Verif.Box.Props
import Verif.Coro.Props
import Verif.Coro.Cleanup
import Verif.Coro.Gen
import Verif.Coro.FiberProps
import Verif.Coro.TaskProps
import Verif.Coro.StructProps
import Verif.Coption.Props
import Verif.Fmt.Props
import Verif.Zstr.Props
import Verif.Zstr.View
import Verif.Control.Props
import Verif.Regex.Props
import Verif.Regex.PatProps
import Verif.Regex.ReplaceProps
import Verif.Regex.FitProps
import Verif.Regex.FitFails
import Verif.Regex.Runs
import Verif.Cost.Spec
import Verif.Sort.Cost
import Verif.Sort.Comparisons
import Verif.Sort.Ordered
import Verif.Sort.Flat
import Verif.PQueue.Cost
import Verif.Smap.Cost
import Verif.Vec.Cap
import Verif.Stack.Cap
import Verif.Deque.Cap
import Verif.PQueue.Cap
import Verif.Hmap.Cap
import Verif.Smap.Cap
import Verif.Cstr.Cap
import Verif.Cost.Reserve
import Verif.Cost.Props
import Verif.Cost.Shrink
import Verif.Derived
import Verif.Coro.ProcProps
import Verif.Coro.LinkProps
import Verif.Algo.Pairwise
import Verif.Own.Props
import Verif.Utf8.Restart
import Verif.Alloc.Spec
import Verif.Alloc.Model
import Verif.Alloc.World
import Verif.Alloc.Bufs
import Verif.Alloc.Nodes
import Verif.Alloc.Strs
import Verif.Alloc.Props
import Verif.Regex.Reloc
import Verif.Regex.Flags
import Verif.Regex.WorkProps
import Verif.Regex.Term
import Verif.Instances
import Verif.Regex.Instances
import Verif.Regex.Life
import Verif.Template.Compare
import Verif.PQueue.IntLess
import Verif.Template.Owning
import Verif.Cstr.Format
import Verif.Coro.Timer
import Verif.Csview.IEquals
import Verif.Vec.FindIn
import Verif.Deque.Find
import Verif.Cstr.Join
import Verif.Algo.EachRange
import Verif.Alloc.New
import Verif.Cases
import Verif.Random.Global
import Verif.Random.GlobalProps
