import Verif.Props.Graph
import Verif.Props.Branches
import Verif.Props.Apply
import Verif.Props.Parse
import Verif.Props.Heap
import Verif.Props.GitLog
import Verif.Props.GitBlame
import Verif.Props.BranchMeta
import Verif.Props.Rename
import Verif.Props.CommitMeta
import Verif.Props.Process
import Verif.Props.ProcessState
import Verif.Props.Resume
import Verif.Props.Checkpoint
import Verif.Spec.ReadBack
import Verif.Props.ReadBack
import Verif.Props.CheckpointFS
import Verif.Props.Lcp
import Verif.Props.Timing
import Verif.Props.FileInfo
import Verif.Props.CodeInfo
import Verif.Props.IterDir
import Verif.Props.GitCache
import Verif.Props.Pipeline
import Verif.Props.Whole
import Verif.Props.Pool
import Verif.Props.Ripsrc
import Verif.Props.BranchGrowth
import Verif.Props.Copies
import Verif.Props.QuotedDiff
import Verif.Props.QuotedRename
import Verif.Props.QuotedBinary
import Verif.Props.QuotedMerge
import Verif.Props.ParseMore
import Verif.Props.Cli
import Verif.Model.Revs
import Verif.Spec.Revs
import Verif.Props.Revs
import Verif.Model.ExecPiped
import Verif.Model.FileJobs
import Verif.Spec.Stream
import Verif.Lib.ExecPiped
import Verif.Props.ExecPiped
import Verif.Props.ExecPipedUse
import Verif.Props.FileJobs
import Verif.Props.WholeText
import Verif.Props.WholeResume
import Verif.Props.WholeResumeText
import Verif.Props.Race
import Verif.Props.Stream
import Verif.Props.ProcessCommit
import Verif.Lib.AllBlames
import Verif.Props.AnyLog
import Verif.Model.Validate
import Verif.Spec.Validate
import Verif.Props.Validate
import Verif.Model.BlameCommit
import Verif.Props.BlameCommit
import Verif.Lib.PipelinePanic
import Verif.Props.PipelinePanic
import Verif.Spec.Missing
import Verif.Lib.Missing
import Verif.Props.Missing
import Verif.Props.MissingMerge
import Verif.Model.MsgpData
import Verif.Spec.MsgPack
import Verif.Spec.Codec
import Verif.Lib.MsgPack
import Verif.Lib.MsgPack2
import Verif.Lib.MsgSkip
import Verif.Lib.MsgSkip2
import Verif.Lib.MsgCut
import Verif.Props.MsgPack
import Verif.Props.MsgpData
import Verif.Props.BrokenLog
import Verif.Go.Space
import Verif.Go.NumSpec
import Verif.Go.SortSpec
import Verif.Model.Regexp
import Verif.Spec.Regexp
import Verif.Lib.Regexp
import Verif.Lib.RxForms
import Verif.Model.GenIgnore
import Verif.Spec.Ignore
import Verif.Props.Ignore
import Verif.Props.GenIgnore
import Verif.Props.RegexpUse
import Verif.Model.Logger
import Verif.Spec.Logger
import Verif.Props.Logger
import Verif.Model.GetAll
import Verif.Props.GetAll
import Verif.Model.Random
import Verif.Props.Random
import Verif.Model.Debug
import Verif.Props.Debug
import Verif.Spec.Stored
import Verif.Lib.Stored
import Verif.Props.Stored
import Verif.Spec.GitConfig
import Verif.Lib.Unattributed
import Verif.Lib.Ran
import Verif.Props.GitConfig
import Verif.Model.Time
import Verif.Spec.Time
import Verif.Lib.Time
import Verif.Props.Time
import Verif.Props.TimeOnly
import Verif.Props.BranchNames
import Verif.Props.MetaMalformed
import Verif.Model.CheckpointRace
import Verif.Spec.CheckpointRace
import Verif.Props.CheckpointRace
import Verif.Props.Ancestors
import Verif.Props.BlameFails
import Verif.Props.Quoted
import Verif.Model.Outlet
import Verif.Lib.Outlet
import Verif.Lib.OutletInv
import Verif.Lib.OutletUse
import Verif.Props.Outlet
import Verif.Model.Unwind
import Verif.Lib.Unwind
import Verif.Lib.OutletBack
import Verif.Lib.UnwindRun
import Verif.Props.Unwind
import Verif.Model.SharedObject
import Verif.Props.SharedObject
import Verif.Spec.StaleGraph
import Verif.Lib.StaleGraph
import Verif.Props.StaleGraph
import Verif.Props.Marker
import Verif.Props.SharedSequential
import Verif.Props.SharedLast
import Verif.Props.StaleObject
import Verif.Props.PowerLoss
import Verif.Props.GitSettings
