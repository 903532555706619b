import Verif.Props.Statements
import Verif.Props.Negations
import Verif.Props.Universal
import Verif.Props.Isolation
import Verif.Proofs.RunsRemove
import Verif.Proofs.RepRead
import Verif.Proofs.RepSearch
import Verif.Proofs.RepEvo
import Verif.Proofs.RepInsert
import Verif.Proofs.RepInsert2
import Verif.Proofs.RepInsert3
import Verif.Proofs.RepDelete
import Verif.Proofs.RepTxn
import Verif.Proofs.RepSeek
import Verif.Proofs.RepIter
import Verif.Proofs.Refine
import Verif.Proofs.Refine2
import Verif.Proofs.Refine3
import Verif.Proofs.CleanBase
import Verif.Proofs.Order
import Verif.Proofs.CleanRead
import Verif.Props.Clean
import Verif.Proofs.CleanIter
import Verif.Proofs.CleanSets
import Verif.Props.CleanIter
import Verif.Model.Conc
import Verif.Model.Slice
import Verif.Proofs.Conc
import Verif.Proofs.Slices
import Verif.Props.Conc
import Verif.Props.Slices
import Verif.Proofs.Watch
import Verif.Props.Watch
import Verif.Proofs.Rank
import Verif.Proofs.RankRead
import Verif.Proofs.RankWorld
import Verif.Proofs.RankStop
import Verif.Props.Stops
import Verif.Proofs.Gives
import Verif.Proofs.CleanPath
import Verif.Props.CleanPath
import Verif.Proofs.Lineage
import Verif.Proofs.Slots
import Verif.Proofs.Longest
import Verif.Props.CleanTidy
import Verif.Proofs.DelPrefix
import Verif.Proofs.Pruned
import Verif.Proofs.Prune
import Verif.Proofs.PruneTxn
import Verif.Props.CleanPrefix
import Verif.Proofs.Label
import Verif.Proofs.Label2
import Verif.Proofs.Label3
import Verif.Proofs.Label4
import Verif.Props.Spared
import Verif.Proofs.Wide
import Verif.Props.Wide
import Verif.Proofs.RevBound
import Verif.Proofs.LowBound
import Verif.Props.Bounds
import Verif.Model.Extra
import Verif.Proofs.Grow
import Verif.Props.Extra
import Verif.Proofs.RevPrefix
import Verif.Props.TxnRead
import Verif.Props.RevPrefix
import Verif.Proofs.Sane
import Verif.Proofs.SaneOps
import Verif.Proofs.SaneDel
import Verif.Proofs.SaneRead
import Verif.Props.Calm
import Verif.Proofs.Miss
import Verif.Props.Miss
import Verif.Proofs.Lone
import Verif.Proofs.LoneWorld
import Verif.Proofs.FreshWatch
import Verif.Props.Fresh
import Verif.Proofs.Tracked
import Verif.Proofs.Counts
import Verif.Props.Tally
import Verif.Proofs.Twin2
import Verif.Proofs.CloneRead
import Verif.Props.Clone
import Verif.Proofs.SeenIso
import Verif.Props.Readers
import Verif.Proofs.Limits
import Verif.Proofs.Dfs
import Verif.Props.Limits
import Verif.Props.Dfs
import Verif.Model.Pool
import Verif.Proofs.Pair
import Verif.Proofs.Pair2
import Verif.Proofs.Pair3
import Verif.Proofs.Pair4
import Verif.Proofs.Pair5
import Verif.Proofs.Pair6
import Verif.Proofs.PoolInv
import Verif.Proofs.PoolRun
import Verif.Proofs.Session
import Verif.Proofs.PoolWorld
import Verif.Props.Pool
import Verif.PoolSpec
import Verif.Proofs.TeamOut
import Verif.Props.Team
import Verif.Props.TeamMap
import Verif.Proofs.Ring
import Verif.Proofs.RingPool
import Verif.Props.Ring
import Verif.Proofs.Firm
import Verif.Proofs.Deliver
import Verif.Props.Deliver
import Verif.Model.Print
import Verif.PrintSpec
import Verif.Proofs.Print
import Verif.Props.Print
import Verif.Proofs.Mind
import Verif.Proofs.MindPool
import Verif.Props.Mind
import Verif.Model.Handle
import Verif.Proofs.Handle
import Verif.Proofs.Handle2
import Verif.Props.Handle
import Verif.Proofs.Held
import Verif.Props.Held
import Verif.Proofs.Kept
import Verif.Props.Kept
import Verif.Model.Leak
import Verif.LeakSpec
import Verif.Proofs.Leak
import Verif.Props.Leak
import Verif.Model.Front
import Verif.FrontSpec
import Verif.Proofs.Front
import Verif.Props.Front
import Verif.Model.Buffer
import Verif.BufferSpec
import Verif.Proofs.Buffer
import Verif.Props.Buffer
import Verif.Model.Share
import Verif.ShareSpec
import Verif.Proofs.Share
import Verif.Props.Share
import Verif.Props.RepoTests
import Verif.Props.RepoWatch
import Verif.Model.Mixed
import Verif.MixedSpec
import Verif.Proofs.Mixed
import Verif.Props.Mixed
import Verif.Model.Rounds
import Verif.RoundsSpec
import Verif.Proofs.Rounds
import Verif.Props.Rounds
