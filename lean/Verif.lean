import Verif.Core.Model
import Verif.Core.Spec
import Verif.Core.Lawful
import Verif.Core.OpProofs
import Verif.Core.UserProofs
import Verif.Core.Props
import Verif.Core.Reentry
import Verif.Disposable.Composite
import Verif.Disposable.CompositeProofs
import Verif.Disposable.CompositeProps
import Verif.Disposable.Base
import Verif.Disposable.Refcount
import Verif.Disposable.RefcountProps
import Verif.Disposable.Container
import Verif.Disposable.Capacity
import Verif.Scheduler.Queue
import Verif.Scheduler.CurrentThread
import Verif.Scheduler.CurrentThreadProofs
import Verif.Scheduler.CurrentThreadProps
import Verif.Scheduler.Immediate
import Verif.Scheduler.TestScheduler
import Verif.Scheduler.RunLoop
import Verif.Scheduler.NewThread
import Verif.Scheduler.NewThreadProps
import Verif.Subject.Model
import Verif.Subject.Spec
import Verif.Subject.Proofs
import Verif.Subject.Props
import Verif.Subject.Concurrent
import Verif.Subject.ConcurrentProofs
import Verif.Subject.SerializedProofs
import Verif.Subject.ConcurrentProps
import Verif.Subject.ConcurrentWalk
import Verif.Subject.ConcurrentFresh
import Verif.Subject.RefCount
import Verif.Subject.RefCountProofs
import Verif.Subject.RefCountProps
import Verif.Combine.Hub
import Verif.Combine.Operators
import Verif.Combine.Spec
import Verif.Combine.HubProofs
import Verif.Combine.HubOrder
import Verif.Combine.HubEnd
import Verif.Combine.OperatorProofs
import Verif.Combine.Props
import Verif.Combine.Switch
import Verif.Combine.SwitchProps
import Verif.Combine.SwitchFineProps
import Verif.Combine.Concat
import Verif.Combine.ConcatProofs
import Verif.Combine.ConcatInv
import Verif.Combine.ConcatEnd
import Verif.Combine.ConcatVals
import Verif.Combine.ConcatProps
import Verif.Resub.Machine
import Verif.Resub.Proofs
import Verif.Resub.Inv
import Verif.Resub.Log
import Verif.Resub.Vals
import Verif.Resub.Legal
import Verif.Resub.Props
import Verif.Resub.Repeat
import Verif.Resub.Examples
import Verif.Time.Delay
import Verif.Time.DelayProofs
import Verif.Time.DelayLog
import Verif.Time.DelayProps
import Verif.Time.ObserveOnProps
import Verif.Time.Timeout
import Verif.Time.TimeoutProofs
import Verif.Time.TimeoutProps
import Verif.Time.Debounce
import Verif.Time.DebounceProofs
import Verif.Time.DebounceLog
import Verif.Time.DebounceEnd
import Verif.Time.DebounceProps
import Verif.Window.Hub
import Verif.Window.HubProofs
import Verif.Window.HubDeliver
import Verif.Window.HubPlan
import Verif.Window.HubLife
import Verif.Window.Window
import Verif.Window.WindowProofs
import Verif.Window.WindowProps
import Verif.Window.GroupBy
import Verif.Window.GroupByProofs
import Verif.Window.GroupByProps
import Verif.Window.Late
import Verif.Window.ToggleProps
import Verif.Source.From
import Verif.Source.FromProps
import Verif.Source.Interval
import Verif.Source.IntervalSched
import Verif.Source.IntervalProps
import Verif.Source.Blocking
import Verif.Source.BlockingProps
import Verif.Source.RoundRobin
import Verif.Combine.Reentry
import Verif.Combine.ReentryProps
import Verif.Core.Algebra
import Verif.Ext.Grpc
import Verif.Ext.GrpcSpec
import Verif.Ext.GrpcProofs
import Verif.Ext.GrpcProps
import Verif.Ext.Strand
import Verif.Ext.StrandSpec
import Verif.Ext.StrandProofs
import Verif.Ext.StrandSteps
import Verif.Ext.StrandLogs
import Verif.Ext.StrandLive
import Verif.Ext.StrandProps
import Verif.Ext.QtProps
import Verif.Subject.ConnectProps
import Verif.Disposable.OwnerProps
import Verif.Source.SubscribeOnProps
import Verif.Disposable.Graph
import Verif.Disposable.GraphProofs
import Verif.Disposable.GraphProps
import Verif.Disposable.GraphDispose
import Verif.Disposable.GraphKept
import Verif.Resub.StackProps
import Verif.Resub.StackCount
import Verif.Core.Cross
import Verif.Core.CrossProofs
import Verif.Core.CrossInv
import Verif.Core.CrossRelease
import Verif.Core.CrossSim
import Verif.Core.CrossHand
import Verif.Core.CrossAlone
import Verif.Core.CrossProps
import Verif.Combine.Locks
import Verif.Combine.LocksProofs
import Verif.Combine.LocksProps
import Verif.Combine.Serial
import Verif.Combine.SerialProofs
import Verif.Combine.SerialProps
import Verif.Combine.Flag
import Verif.Combine.FlagProps
import Verif.Core.Moved
import Verif.Core.MovedProofs
import Verif.Combine.ZipMoved
import Verif.Combine.ZipMovedProofs
import Verif.Combine.ZipMovedProps
import Verif.Core.Share
import Verif.Core.ShareProofs
import Verif.Core.ShareProps
import Verif.Time.Stages
import Verif.Time.StagesProofs
import Verif.Time.StagesLive
import Verif.Time.StagesProps
import Verif.Time.StagesTurns
import Verif.Core.Storage
import Verif.Core.StorageProps
import Verif.Net.Machine
import Verif.Net.MachineProofs
import Verif.Net.Tree
import Verif.Net.TreeProofs
import Verif.Net.AllProofs
import Verif.Net.RestProofs
import Verif.Net.Props
import Verif.Net.HubLive
import Verif.Net.JoinLive
import Verif.Net.Live
import Verif.Net.Flat
import Verif.Net.FlatProofs
import Verif.Net.FlatSync
import Verif.Net.FlatProps
import Verif.Net.Follow
import Verif.Net.FollowProofs
import Verif.Net.FollowProps
import Verif.Ext.Signal
import Verif.Core.Feed
import Verif.Core.FeedProofs
import Verif.Core.FeedInv
import Verif.Core.FeedProps
import Verif.Subject.AgreeProofs
import Verif.Subject.AgreeProps
import Verif.Window.FeedBack
import Verif.Window.FeedBackProofs
import Verif.Window.FeedBackProps
import Verif.LetGo.Model
import Verif.LetGo.Proofs
import Verif.LetGo.Props
import Verif.LetGo.WhenProps
import Verif.Scheduler.RunLoopWake
import Verif.Scheduler.RunLoopWakeProps
import Verif.Scheduler.NewThreadEnds
import Verif.Subject.RefCounts
import Verif.Subject.RefCountsProps
import Verif.Source.BlockingNested
import Verif.Source.BlockingNestedProps
import Verif.Core.Mortal
import Verif.Core.MortalProps
import Verif.Subject.Share
import Verif.Subject.ShareProofs
import Verif.Subject.ShareProps
import Verif.Scheduler.PoolRace
import Verif.Scheduler.PoolRaceProps
import Verif.Scheduler.PoolWait
import Verif.Scheduler.PoolWaitProofs
import Verif.Scheduler.PoolWaitCycle
import Verif.Scheduler.PoolWaitProps
import Verif.Core.Erase
import Verif.Core.EraseProps
import Verif.Source.Endless
import Verif.Source.EndlessProps
import Verif.Resub.Sync
import Verif.Resub.SyncProps
import Verif.Combine.SyncFlat
import Verif.Combine.SyncFlatProps
import Verif.Combine.SyncPair
import Verif.Combine.SyncPairProps
import Verif.Time.Caller
import Verif.Time.CallerProps
import Verif.Resub.SyncHandle
import Verif.Resub.SyncHandleProps
import Verif.Combine.SyncUntil
import Verif.Combine.SyncUntilProps
import Verif.Combine.Turns
import Verif.Combine.TurnsProps
import Verif.Combine.TurnsEndless
import Verif.Combine.TurnsEndlessProps
import Verif.Combine.TurnsThrow
import Verif.Combine.TurnsThrowProps
import Verif.Combine.MergeEndless
import Verif.Combine.MergeEndlessProps
import Verif.Combine.MergeMixed
import Verif.Combine.MergeMixedProps
import Verif.Combine.FlatEndless
import Verif.Combine.FlatEndlessProps
import Verif.Audit
