import Verif.Model.Assoc
import Verif.Model.AssocConc
import Verif.Model.BTree
import Verif.Model.BTreeConc
import Verif.Model.BTreeLocks
import Verif.Model.BTreeWalk
import Verif.Model.Channel
import Verif.Model.ChannelLocks
import Verif.Model.ChannelStop
import Verif.Model.Client
import Verif.Model.Config
import Verif.Model.DataTypes
import Verif.Model.DeleteRace
import Verif.Model.DestroyGate
import Verif.Model.DestroyKeys
import Verif.Model.DestroySync
import Verif.Model.FloatText
import Verif.Model.Heartbeater
import Verif.Model.ItemLease
import Verif.Model.JsonString
import Verif.Model.Lease
import Verif.Model.LimitWait
import Verif.Model.Limiter
import Verif.Model.LimiterClient
import Verif.Model.LimiterHttp
import Verif.Model.LimiterLease
import Verif.Model.LimiterLocks
import Verif.Model.LimiterReads
import Verif.Model.Locker
import Verif.Model.LocksQuery
import Verif.Model.MatchConc
import Verif.Model.OneToMany
import Verif.Model.QueryConc
import Verif.Model.Queue
import Verif.Model.QueueGate
import Verif.Model.Queues
import Verif.Model.Requests
import Verif.Model.RuleDelete
import Verif.Model.SharedLock
import Verif.Model.Waiting
import Verif.Proofs.AssocBase
import Verif.Proofs.AssocConc
import Verif.Proofs.AssocConcGone
import Verif.Proofs.AssocConcHang
import Verif.Proofs.AssocConcLive
import Verif.Proofs.AssocConcMove
import Verif.Proofs.AssocConcSim
import Verif.Proofs.AssocConcSim2
import Verif.Proofs.AssocConcUse
import Verif.Proofs.AssocIndex
import Verif.Proofs.AssocMatch
import Verif.Proofs.AssocMore
import Verif.Proofs.AssocOps
import Verif.Proofs.AssocPerm
import Verif.Proofs.AssocQuery
import Verif.Proofs.AssocRun
import Verif.Proofs.BTreeBase
import Verif.Proofs.BTreeConcBalance
import Verif.Proofs.BTreeConcBase
import Verif.Proofs.BTreeConcEvents
import Verif.Proofs.BTreeConcFin
import Verif.Proofs.BTreeConcInner
import Verif.Proofs.BTreeConcLive
import Verif.Proofs.BTreeConcNode
import Verif.Proofs.BTreeConcStep
import Verif.Proofs.BTreeConcTok
import Verif.Proofs.BTreeConcTop
import Verif.Proofs.BTreeCreate
import Verif.Proofs.BTreeDelete
import Verif.Proofs.BTreeFail
import Verif.Proofs.BTreeFind
import Verif.Proofs.BTreeLocks
import Verif.Proofs.BTreeTop
import Verif.Proofs.BTreeTree
import Verif.Proofs.BTreeWalk
import Verif.Proofs.BTreeWalkCut
import Verif.Proofs.BTreeWalkErase
import Verif.Proofs.BTreeWalkInv
import Verif.Proofs.BTreeWalkLive
import Verif.Proofs.BTreeWalkOnce
import Verif.Proofs.BTreeWalkOwn
import Verif.Proofs.BTreeWalkRun
import Verif.Proofs.BTreeWalkSnap
import Verif.Proofs.BTreeWalkVisit
import Verif.Proofs.Channel
import Verif.Proofs.ChannelBase
import Verif.Proofs.ChannelHist
import Verif.Proofs.ChannelLocks
import Verif.Proofs.ChannelLog
import Verif.Proofs.ChannelOrder
import Verif.Proofs.ChannelServe
import Verif.Proofs.ChannelStop
import Verif.Proofs.ChannelTurns
import Verif.Proofs.Client
import Verif.Proofs.Config
import Verif.Proofs.DataTypes
import Verif.Proofs.DeleteRace
import Verif.Proofs.DestroyGate
import Verif.Proofs.DestroyGateLive
import Verif.Proofs.DestroyKeys
import Verif.Proofs.DestroySync
import Verif.Proofs.FloatText
import Verif.Proofs.Heartbeater
import Verif.Proofs.ItemLease
import Verif.Proofs.ItemLeaseCode
import Verif.Proofs.JsonString
import Verif.Proofs.Lease
import Verif.Proofs.LimitWait
import Verif.Proofs.LimitWaitRun
import Verif.Proofs.LimiterAllowed
import Verif.Proofs.LimiterAny
import Verif.Proofs.LimiterBase
import Verif.Proofs.LimiterClient
import Verif.Proofs.LimiterCount
import Verif.Proofs.LimiterGroup
import Verif.Proofs.LimiterHttp
import Verif.Proofs.LimiterLease
import Verif.Proofs.LimiterLocks
import Verif.Proofs.LimiterSim
import Verif.Proofs.LimiterTotals
import Verif.Proofs.Locker
import Verif.Proofs.LockerCount
import Verif.Proofs.LockerFacts
import Verif.Proofs.LockerInv
import Verif.Proofs.LockerLive
import Verif.Proofs.LockerMore
import Verif.Proofs.LockerProgress
import Verif.Proofs.LockerResp
import Verif.Proofs.LockerServe
import Verif.Proofs.LockerStop
import Verif.Proofs.LockerTrace
import Verif.Proofs.MatchConc
import Verif.Proofs.MatchConcExec
import Verif.Proofs.MatchConcOnce
import Verif.Proofs.MatchConcQuiet
import Verif.Proofs.OneToMany
import Verif.Proofs.QueryConc
import Verif.Proofs.QueryConcExec
import Verif.Proofs.QueryConcOnce
import Verif.Proofs.QueryConcProg
import Verif.Proofs.QueryConcRun
import Verif.Proofs.Queue
import Verif.Proofs.QueueAsks
import Verif.Proofs.QueueGate
import Verif.Proofs.QueueKeys
import Verif.Proofs.QueueLimits
import Verif.Proofs.Queues
import Verif.Proofs.Requests
import Verif.Proofs.RuleDelete
import Verif.Proofs.RuleDeleteRun
import Verif.Proofs.SharedLock
import Verif.Proofs.SharedLockEnd
import Verif.Proofs.SharedLockFresh
import Verif.Proofs.SharedLockHang
import Verif.Proofs.SharedLockRet
import Verif.Proofs.Waiting
import Verif.Proofs.World
import Verif.Props.Assoc
import Verif.Props.AssocConc
import Verif.Props.BTree
import Verif.Props.BTreeConc
import Verif.Props.BTreeWalk
import Verif.Props.BTreeWalkLive
import Verif.Props.BTreeWalkOnce
import Verif.Props.BTreeWalkSnap
import Verif.Props.Channel
import Verif.Props.ChannelLocks
import Verif.Props.ChannelServe
import Verif.Props.ChannelStop
import Verif.Props.Client
import Verif.Props.ClientWorld
import Verif.Props.Config
import Verif.Props.DataTypes
import Verif.Props.DeleteRace
import Verif.Props.DestroyGate
import Verif.Props.DestroyKeys
import Verif.Props.DestroySync
import Verif.Props.FloatText
import Verif.Props.Heartbeater
import Verif.Props.ItemLease
import Verif.Props.Lease
import Verif.Props.LimitWait
import Verif.Props.Limiter
import Verif.Props.LimiterClient
import Verif.Props.LimiterHttp
import Verif.Props.LimiterLease
import Verif.Props.LimiterLocks
import Verif.Props.LimiterReads
import Verif.Props.Locker
import Verif.Props.LockerServe
import Verif.Props.LockerStop
import Verif.Props.LocksQuery
import Verif.Props.MatchConc
import Verif.Props.OneToMany
import Verif.Props.QueryConc
import Verif.Props.Queue
import Verif.Props.QueueGate
import Verif.Props.Queues
import Verif.Props.Requests
import Verif.Props.RuleDelete
import Verif.Props.SharedLock
import Verif.Props.Waiting
import Verif.Props.World
import Verif.Spec.Assoc
import Verif.Spec.AssocConc
import Verif.Spec.BTree
import Verif.Spec.BTreeConc
import Verif.Spec.BTreeWalk
import Verif.Spec.Channel
import Verif.Spec.ChannelServe
import Verif.Spec.ChannelStop
import Verif.Spec.Client
import Verif.Spec.Config
import Verif.Spec.DataTypes
import Verif.Spec.DestroyGate
import Verif.Spec.DestroyKeys
import Verif.Spec.FloatText
import Verif.Spec.Heartbeater
import Verif.Spec.ItemLease
import Verif.Spec.Lease
import Verif.Spec.LimitWait
import Verif.Spec.Limiter
import Verif.Spec.LimiterClient
import Verif.Spec.LimiterHttp
import Verif.Spec.LimiterLease
import Verif.Spec.LimiterLocks
import Verif.Spec.Locker
import Verif.Spec.LockerServe
import Verif.Spec.LockerStop
import Verif.Spec.MatchConc
import Verif.Spec.OneToMany
import Verif.Spec.QueryConc
import Verif.Spec.Queue
import Verif.Spec.QueueGate
import Verif.Spec.Queues
import Verif.Spec.Requests
import Verif.Spec.RuleDelete
import Verif.Spec.Utf8
import Verif.Spec.Waiting
import Verif.Spec.World
