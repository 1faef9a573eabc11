import Verif.Props.Linear
import Verif.Props.Lookup
import Verif.Props.Memory
import Verif.Props.Iterate
import Verif.Props.Progress
import Verif.Props.Serial
import Verif.Props.Pruned
import Verif.Props.Quiescent
import Verif.Props.Sequential
import Verif.Props.Tagged
import Verif.Props.ExistingOrNew
import Verif.Props.Wrappers
import Verif.Props.Extend
import Verif.Props.WrapperRuns
import Verif.Props.WrapperAtomic
import Verif.Props.Closure
import Verif.Props.Drop
import Verif.Props.Weak
import Verif.Props.Hostile
import Verif.Props.Coherent
import Verif.Props.Synchronised
import Verif.Props.Granularity
import Verif.Props.WeakProgress
import Verif.Props.Wild
import Verif.Props.Clone
import Verif.Props.Endless
import Verif.Props.EndlessRuns
import Verif.Props.EndlessIter
import Verif.Props.Ledger
import Verif.Props.ForkJoin
import Verif.Props.Footprint
import Verif.Props.Late
import Verif.Props.Reuse
import Verif.Props.Fine
import Verif.Props.Path
import Verif.Props.Depth
import Verif.Props.Retry
import Verif.Props.Cost
import Verif.Props.Tidy
import Verif.Props.ReuseWeak
import Verif.Props.Handles
import Verif.Props.Print
import Verif.Props.Heal
import Verif.Props.Format
import Verif.Props.Locking
import Verif.Props.Since
import Verif.Props.WeakUpdates
import Verif.Props.Zone
import Verif.Props.WeakPruned
import Verif.Props.Threads
import Verif.Props.Collectors
import Verif.Props.WeakWrappers
import Verif.Props.FineWeak
import Verif.Props.Lifetimes
import Verif.Props.Borrow
import Verif.Props.BorrowWeak
import Verif.Props.Cloning
import Verif.Props.CloningWeak
import Verif.Props.Looks
import Verif.Props.LooksWeak
import Verif.Props.LooksSync
import Verif.Props.LooksFine
