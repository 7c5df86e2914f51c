import Verif.Common
import Verif.Base.Props
import Verif.IntTime.Props
import Verif.IntTime.Measure
import Verif.Hash.Props
import Verif.Hex.Props
import Verif.Sha1.Props
import Verif.Sha1.Align
import Verif.Uuid.Props
import Verif.Uuid.Threads
import Verif.Uuid.Powl
import Verif.EList.Props
import Verif.EList.Iter
import Verif.LList.Props
import Verif.LList.Cost
import Verif.LList.Share
import Verif.Table.Compare
import Verif.Table.Lossless
import Verif.Table.Each
import Verif.Table.Self
import Verif.Table.Calls
import Verif.Set.Destroy
import Verif.Set.History
import Verif.Set.Alias
import Verif.RbTree.Props
import Verif.RbTree.Any
import Verif.RbTree.Iter
import Verif.Array.Bstream
import Verif.Array.Portable
import Verif.Array.ProcProps
import Verif.Buf.Props
import Verif.Buf.Self
import Verif.PtrArray.Props
import Verif.PtrArray.Own
import Verif.Ipv4.Text
import Verif.Ipv4.Str
import Verif.Ipv4.Proc
import Verif.MemPool.Group
import Verif.MemPool.PolicyProps
import Verif.MemPool.Oom
import Verif.MemPool.Align
import Verif.MemPool.Heap
import Verif.EzPool.History
import Verif.Gc.Findings
import Verif.Gc.Work
import Verif.Gc.Pace
import Verif.Gc.Drop
import Verif.Gc.Cycle
import Verif.Gc.Visit
import Verif.Atexit.Props
import Verif.Atexit.Total
import Verif.Numeral
import Verif.Itoa.Props
import Verif.Format.Props
import Verif.Format.Hash
import Verif.Cstr.Search
import Verif.Cstr.Map
import Verif.Cstr.Paths
import Verif.Cstr.Dump
import Verif.Cstr.DumpPrint
import Verif.Cstr.Split
import Verif.Cstr.Own
import Verif.Pool.Demo
import Verif.Pool.Pipe
import Verif.Pool.Life
import Verif.Pool.Callbacks
import Verif.Pool.Prim
import Verif.Pool.Posix
import Verif.Pool.Race
import Verif.Random.Props
import Verif.Opts.Props
import Verif.Opts.Complaints
import Verif.Cfg.Double
import Verif.Cfg.Safe
import Verif.Cfg.Own
import Verif.Table.ProcProps
import Verif.Macros.Props
import Verif.Log.Error
import Verif.Opts.Errors
import Verif.Unit.Props
import Verif.Unit.Errors
import Verif.Log.Props
import Verif.Log.Threads
import Verif.Log.Lines
import Verif.Log.Dest
import Verif.Log.Stamp
import Verif.Path.Basedir
import Verif.Prog.Dir
import Verif.Daemon.Props
import Verif.Opts.Number
import Verif.Opts.Help
import Verif.Format.Float
import Verif.Format.Race
import Verif.Format.Register
import Verif.Unit.ReportProps
import Verif.Replace.Asprintf
import Verif.Replace.Vsyslog
import Verif.Replace.Strings
import Verif.Replace.Alloc
import Verif.Unit.Own
import Verif.Unit.Register
import Verif.MemPool.Display
import Verif.Random.Float
import Verif.IntTime.Elapsed
import Verif.Host
import Verif.Base.InPlace
import Verif.Hex.InPlace
import Verif.IntTime.Vars
import Verif.Cstr.CopyIn
import Verif.Array.Moves
import Verif.Base.EncodeIn
