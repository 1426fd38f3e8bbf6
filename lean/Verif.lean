import Verif.Props.Codec
import Verif.Props.Wal
import Verif.Props.Address
import Verif.Props.BlockRange
import Verif.Props.Hash
import Verif.Props.Message
import Verif.Props.Topic
import Verif.Props.Bloom
import Verif.Props.Consistent
import Verif.Props.Lease
import Verif.Props.Engine
import Verif.Props.Get
import Verif.Props.Window
import Verif.Props.Query
import Verif.Props.Wire
import Verif.Props.Credentials
import Verif.Props.StreamConn
import Verif.Props.ServerState
import Verif.Props.Sessions
import Verif.Props.Patricia
import Verif.Props.Ring
import Verif.Props.Election
import Verif.Props.Batching
import Verif.Props.MemBlock
import Verif.Props.MemDb
import Verif.Props.MemRecovery
import Verif.Props.Db
import Verif.Props.DbPut
import Verif.Props.DbGet
import Verif.Props.DbEffects
import Verif.Props.DbBatch
import Verif.Props.DbSaga
import Verif.Props.DbSince
import Verif.Props.DbTale
import Verif.Props.DbLife
import Verif.Props.DbCrash
import Verif.Props.DbSizes
import Verif.Props.QueryLast
import Verif.Model.DbLimit
import Verif.Props.DbLimit
import Verif.Model.Expiry
import Verif.Model.ExpiryInv
import Verif.Props.Expiry
import Verif.Model.TrieRace
import Verif.Model.TrieRaceInv
import Verif.Props.TrieRace
import Verif.Model.Par
import Verif.Model.ParInv
import Verif.Props.Par
import Verif.Model.SyncFail
import Verif.Props.SyncFail
import Verif.Model.LockFile
import Verif.Props.LockFile
import Verif.Model.LogQueue
import Verif.Props.LogQueue
import Verif.Model.Delivery
import Verif.Model.DeliveryInv
import Verif.Props.Serve
import Verif.Props.Delivery
import Verif.Props.Isolation
import Verif.Model.Tables
import Verif.Props.Tables
import Verif.Model.Sniff
import Verif.Props.Sniff
import Verif.Model.Cluster
import Verif.Props.Cluster
import Verif.Model.Sample
import Verif.Props.Sample
import Verif.Model.Stats
import Verif.Props.Stats
import Verif.Props.Proto
import Verif.Props.ProtoLog
import Verif.Props.Front
import Verif.Props.Failover
import Verif.Props.MsgStore
import Verif.Props.Whole
import Verif.Props.Registry
import Verif.Model.ConnId
import Verif.Props.ConnId
import Verif.Model.Full
import Verif.Props.Full
import Verif.Model.Reuse
import Verif.Props.Reuse
import Verif.Model.Rollback
import Verif.Props.Rollback
import Verif.Props.Busy
import Verif.Props.Issue
import Verif.Props.ShardPath
import Verif.Props.WalName
import Verif.Props.Link
import Verif.Props.Uptime
import Verif.Props.MuxListen
import Verif.Props.Teardown
import Verif.Model.MemLocks
import Verif.Props.MemLocks
import Verif.Model.WalClose
import Verif.Props.WalClose
import Verif.Model.DbLocks
import Verif.Props.DbLocks
import Verif.Model.MapUse
import Verif.Props.MapUse
import Verif.Model.ServerMaps
import Verif.Props.ServerMaps
