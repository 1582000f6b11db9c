import Verif.Props.Varint
import Verif.Props.RoundTrip
import Verif.Props.InSitu
import Verif.Props.Views
import Verif.Props.Paths
import Verif.Props.Duplicates
import Verif.Props.Programs
import Verif.Props.Layout
import Verif.Props.Tables
import Verif.Props.Containers
import Verif.Props.Wrapper
import Verif.Props.Observers
import Verif.Props.Values
import Verif.Props.Reject
import Verif.Proof.Top
import Verif.Props.Format
import Verif.Props.Limits
import Verif.Props.Hostile
import Verif.Props.Truncate
import Verif.Props.TruncateExact
import Verif.Props.Process
import Verif.Props.Unsafe
import Verif.Props.Checks
import Verif.Props.HostileSplit
import Verif.Props.ForeignTable
import Verif.Props.UserType
import Verif.Props.Pool
import Verif.Props.Extend
import Verif.Props.ThreadPool
import Verif.Props.Schedule
import Verif.Props.Pattern
import Verif.Props.Dump
import Verif.Props.Adaptor
import Verif.Props.VariantTypes
import Verif.Props.Owner
import Verif.Props.Leak
import Verif.Props.Size
import Verif.Props.Exec
import Verif.Props.Language
import Verif.Props.Stack
import Verif.Props.SplitLanguage
import Verif.Props.TruncateAll
import Verif.Props.Amplify
import Verif.Props.AmplifyMade
import Verif.Props.Throw
import Verif.Props.StopCalls
import Verif.Props.Heap
import Verif.Props.HeapParse
import Verif.Props.CoHeap
import Verif.Props.Threads
import Verif.Props.Share
import Verif.Props.Readers
import Verif.Props.PoolOom
import Verif.Props.Reread
import Verif.Props.Rewrite
import Verif.Props.TwoGiB
import Verif.Model.Stopped
import Verif.Props.Stopped
import Verif.Props.Witness
import Verif.Props.Witness2
import Verif.Props.CoMany
import Verif.Props.AnyContent
import Verif.Props.ParseOom
import Verif.Props.HeapOom
import Verif.Props.PoolStart
import Verif.Props.Place
import Verif.Props.Stream
