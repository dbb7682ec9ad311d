import Verif.Props.Compaction
import Verif.Props.Contracts
import Verif.Props.ChunkDir
import Verif.Props.Intersect
import Verif.Props.Indexer
import Verif.Props.Misc
import Verif.Props.Storage
import Verif.Props.Chunk
import Verif.Props.ChunkConc
import Verif.Props.Db
import Verif.Props.TikvBackend
import Verif.Props.Server
import Verif.Props.Wal
import Verif.Props.Proto
import Verif.Props.Life
import Verif.Props.DbConc
import Verif.Props.DbProgress
import Verif.Props.Poison
import Verif.Props.ReadBody
import Verif.Props.Backends
import Verif.Props.Options
import Verif.Props.TikvFault
import Verif.Props.ServerLife
import Verif.Props.SwapFault
import Verif.Props.SledFault
import Verif.Props.PowerLoss
import Verif.Props.PowerDb
import Verif.Props.Traffic
import Verif.Props.DbFine
import Verif.Props.DbFineProgress
import Verif.Props.Deployed
import Verif.Props.ServerConc
import Verif.Props.Launch
import Verif.Props.Sessions
import Verif.Props.SessionsExact
import Verif.Props.Cluster
import Verif.Props.PowerLives
import Verif.Props.TikvLives
import Verif.Props.Again
import Verif.Props.AgainLives
import Verif.Props.Unordered
import Verif.Props.Values
import Verif.Props.Clock
import Verif.Props.Ranges
import Verif.Props.Bytes
import Verif.Props.Honest
import Verif.Props.Often
import Verif.Props.Conjunction
import Verif.Props.Growth
import Verif.Props.AnyTime
import Verif.Props.AnyRead
