import Verif.Model.EndToEnd
import Verif.Model.Updater

/-!
# Model of resetting the DB and of the check of its schema
`pkg/db/mysql/mysql.go:82-98`, `pkg/db/mysql/certs.go:286-311`, `pkg/db/mysql/init.go:44-50, 96-113`, `tools/create_schema.sh`.
-/
namespace Fpki.Reset

/-- create_schema.sh:31-191: all tables. `root` has at most one row. The rows of `ctlog_server_last_status` are the hash of the URL, the size and the tree head. -/
structure Tables where
  tree : List (Bytes × Bytes)
  root : Option Bytes
  db : Db.DB
  logs : List (Bytes × Nat × Bytes)
deriving DecidableEq

/-- create_schema.sh:31-191: a new DB. -/
def created : Tables := ⟨[], none, ⟨[], [], [], [], [], [], []⟩, []⟩

/-- mysql.go:82-98 `TruncateAllTables`: its statements, in order. -/
def truncateSteps : List (Tables → Tables) :=
  [fun t => { t with tree := [] },
    fun t => { t with root := none },
    fun t => { t with db := { t.db with domains := [] } },
    fun t => { t with db := { t.db with certs := [] } },
    fun t => { t with db := { t.db with domainCerts := [] } },
    fun t => { t with db := { t.db with payloads := [] } },
    fun t => { t with db := { t.db with dirty := [] } }]

/-- mysql.go:92-97: the first `k` statements, if the next one fails. -/
def truncateFirst (k : Nat) (t : Tables) : Tables := (truncateSteps.take k).foldl (fun t f => f t) t

/-- mysql.go:82-98 `TruncateAllTables`, without errors. -/
def truncateAllTables (t : Tables) : Tables := truncateFirst 7 t

/-- certs.go:288-298 `LastCTlogServerState` -/
def lastState (H : Bytes → Bytes) (t : Tables) (url : Bytes) : Nat × Bytes :=
  match t.logs.find? (fun r => r.1 == H url) with
  | some r => r.2
  | none => (0, [])

/-- certs.go:302-311 `UpdateLastCTlogServerState` -/
def updateLastState (H : Bytes → Bytes) (t : Tables) (url : Bytes) (size : Nat) (sth : Bytes) : Tables :=
  { t with logs := Db.replaceInto Prod.fst t.logs [(H url, size, sth)] }

/-- The updater's view of the DB (`Updater.DB`) after the same reset: the certificates are gone, the recorded sizes are not. -/
def resetLogs (db : Updater.DB) : Updater.DB := { db with stored := fun _ _ => false, excluded := fun _ _ => false }

/-- create_schema.sh:31, 48, 66, 83, 101, 118, 139, 156, 170, 184: the names of the tables. -/
def schema : List String := ["domains", "certs", "domain_certs", "policies", "domain_policies", "domain_payloads", "dirty", "root", "ctlog_server_last_status", "tree"]

/-- init.go:44-50, 96-100: whether a connection is made to a DB with these tables; with `check` (`CheckSchema`), a query on the table `nodes` must succeed. Simplification: the rest of
`checkSchema` (init.go:101-112) and the connection itself never fail. -/
def connects (check : Bool) (tables : List String) : Bool := !check || tables.contains "nodes"

end Fpki.Reset
