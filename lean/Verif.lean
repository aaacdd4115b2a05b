import Verif.Props.Journal
import Verif.Props.Ingest
import Verif.Props.SmtBatch
import Verif.Props.Ids
import Verif.Props.Util
import Verif.Props.FastCsv
import Verif.Props.Batch
import Verif.Props.StageSend
import Verif.Props.StageIn
import Verif.Props.Dirty
import Verif.Props.Chains
import Verif.Props.DbHist
import Verif.Props.Fetch
import Verif.Props.UpdaterHttp
import Verif.Props.Domain
import Verif.Props.Responder
import Verif.Props.LogVerifier
import Verif.Props.LogClient
import Verif.Props.Presence
import Verif.Props.Spin
import Verif.Props.UpdateLoop
import Verif.Props.PolicyAttr
import Verif.Props.PolicyCert
import Verif.Props.Pca
import Verif.Props.CertReader
import Verif.Props.PolicyJson
import Verif.Props.PolicyEqual
import Verif.Props.SmtStore
import Verif.Props.SmtDisk
import Verif.Props.Stall
import Verif.Props.Bridge
import Verif.Props.CsvLoad
import Verif.Props.PayloadApi
import Verif.Props.Prune
import Verif.Props.Ticker
import Verif.Props.Lifecycle
import Verif.Props.TempFile
import Verif.Props.DbConf
import Verif.Props.Interrupt
import Verif.Props.Pipe
import Verif.Props.Rows
import Verif.Props.LocalFetch
import Verif.Props.TreeHead
import Verif.Props.SmtPar
import Verif.Props.JournalFile
import Verif.Props.EndToEnd
import Verif.Props.JournalMem
import Verif.Props.Owner
import Verif.Props.CtSize
import Verif.Props.Layers
import Verif.Props.Source
import Verif.Props.Pem
import Verif.Props.Join
import Verif.Props.Config
import Verif.Props.PolicyText
import Verif.Props.Wire
import Verif.Props.JournalText
import Verif.Props.MerkleLog
import Verif.Props.Pending
import Verif.Props.SmtLoad
import Verif.Props.SmtPast
import Verif.Props.Coalesce
import Verif.Props.SmtReaders
import Verif.Props.TwoUpdaters
import Verif.Props.Policies
import Verif.Props.Reset
import Verif.Props.SameRoot
import Verif.Props.IngestDb
import Verif.Props.Retrieve
import Verif.Props.IngestCmd
import Verif.Props.Lookup
import Verif.Props.PolicyFile
import Verif.Props.Bulk
import Verif.Props.LocalList
import Verif.Props.CsvFile
import Verif.Props.LogConf
import Verif.Props.LogHead
import Verif.Props.StopFetch
import Verif.Props.Expiry
import Verif.Props.ExpiryAny
import Verif.Props.Client
import Verif.Props.Again
import Verif.Props.ClientPruned
import Verif.Props.Bench
import Verif.Props.BenchRun
import Verif.Props.BenchStats
import Verif.Props.AutoResume
import Verif.Props.PipeCheck
import Verif.Props.Exit
import Verif.Props.LogServe
import Verif.Props.IngestStats
import Verif.Props.JoinRaw
import Verif.Props.Hasher
import Verif.Props.Options
import Verif.Props.SendAll
import Verif.Props.GrpcServe
import Verif.Props.Admin
