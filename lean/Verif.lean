import Verif.Blk.Props
import Verif.Blk.Order
import Verif.Append.Props
import Verif.Append.Freed
import Verif.Fixed.Props
import Verif.Vdev.Props
import Verif.Slab.Props
import Verif.Varsize.Props
import Verif.Varsize.Session
import Verif.Varsize.Space
import Verif.VAlloc.Props
import Verif.Crc.Props
import Verif.Pdev.Props
import Verif.Cp.Props
import Verif.Cp.Live
import Verif.Tracker.Props
import Verif.DataSvc.Props
import Verif.Meta.Props
import Verif.Topo.Props
import Verif.Journal.Witness
import Verif.Btree.RangeProps
import Verif.Log.RecoveryWitness
import Verif.Log.DevProps
import Verif.DevMgr.SizeProps
import Verif.DevMgr.BootProps
import Verif.DevMgr.VdevsProps
import Verif.DevMgr.VdevsFound
import Verif.Log.Single
import Verif.RaftLog.Props
import Verif.Repl.EntryProps
import Verif.Repl.SoloProps
import Verif.Repl.RaftProps
import Verif.Repl.DataProps
import Verif.Repl.DataBugs
import Verif.Index.FlushProps
import Verif.Index.LinkProps
import Verif.Index.CowProps
import Verif.Index.JournalProps
import Verif.Index.SpaceProps
import Verif.Fixed.RaceProps
import Verif.Index.RootProps
import Verif.Index.RecoverBugs
import Verif.Index.RootSplitProps
import Verif.Varlen.Bugs
import Verif.Prefix.Bugs
import Verif.Prefix.CountProps
import Verif.Conc.Props
import Verif.Member.Props
import Verif.Member.QuorumProps
import Verif.Scan.Props
import Verif.Scan.ProgressProps
import Verif.Snap.Props
import Verif.Pool.Props
import Verif.Life.Props
import Verif.Pipe.Props
import Verif.Stop.Props
import Verif.Fetch.Props
import Verif.Lock.Props
import Verif.Quiesce.GateProps
import Verif.Quiesce.LatchMore
import Verif.Ready.Props
import Verif.DevMgr.FirstProps
import Verif.Reserve.Props
import Verif.Vote.Props
import Verif.Spread.Props
import Verif.Format.Props
import Verif.Dirty.Props
import Verif.Drop.Props
import Verif.Catalog.Props
import Verif.Usage.Props
import Verif.Reset.Cases
import Verif.SoloSvc.Clean
import Verif.Count.Props
import Verif.MetaCheck.Props
import Verif.SbObj.Props
import Verif.MultiWrite.Props
import Verif.Prio.Props
import Verif.Active.Props
import Verif.Batch.Props
import Verif.Rr.Props
