import Verif.Model.IngestDb
import Verif.Model.EndToEnd

/-!
# Model of the ingest command and the map server as one system: `cmd/ingest/{main,run,afterIngestion}.go` with `pkg/mapserver`

What the command does to the DB, batch by batch, together with everything the map server does (`E2E.Op`). Which files are in which batch, and what the journal makes of an interrupted command,
is the subject of C29-C33, C65, C92; here only: a batch that failed or was interrupted is tried again from its start.
-/
namespace Fpki.IngestCmd
open Fpki.Db (DB)
open Fpki.E2E (Sys)
open Fpki.IngestDb (Item Stmt execAll FullRun)

/-- cmd/ingest/run.go:169-172, cmd/ingest/main.go:161-190: tries at a batch that did not reach the end. Each one is a new pipeline (`NewProcessor`), with a cache of any size, stopped after any number of
statements. -/
inductive Tries (H : Bytes → Bytes) (items : List Item) : List Stmt → Prop
  | none : Tries H items []
  | more {before : List Stmt} (size : Nat) (out : List Stmt) (k : Nat) : Tries H items before → FullRun H size items out → Tries H items (before ++ out.take k)

/-- What can happen. -/
inductive Op where
  /-- cmd/ingest/run.go:169-172: a batch of files is ingested -/
  | batch (items : List Item)
  /-- the map server, and the coalescing and UpdateSMT of the ingest command (cmd/ingest/run.go:173-182) -/
  | other (op : E2E.Op)
  /-- cmd/ingest/run.go:135-143 without 125-132: the strategy "onlysmtupdate" (cmd/ingest/journal/journal.go:127-128) -/
  | onlySmt

/-- A step: cmd/ingest/main.go:196-203: the strategy "onlysmtupdate" calls UpdateSMT and CleanupDirty, whether or not the payloads have been recomputed; all else is as in `E2E.Step`. -/
inductive Step (H : Bytes → Bytes) (s : Sys) : Op → Sys → Prop
  | batch (items : List Item) (before out : List Stmt) (size : Nat) : Tries H items before → FullRun H size items out →
      Step H s (.batch items) { s with db := execAll (before ++ out) s.db }
  | other (op : E2E.Op) (s' : Sys) : E2E.Step H s op s' → Step H s (.other op) s'
  | onlySmt (max : Nat) (t' : Smt.Node) : 0 < max → E2E.UpdateSMT H max s.db s.tree (some t') → Step H s .onlySmt { s with db := Db.cleanupDirty s.db, tree := t' }

/-- Steps one after another. -/
inductive Steps (H : Bytes → Bytes) : Sys → List Op → Sys → Prop
  | nil (s : Sys) : Steps H s [] s
  | snoc {s s' s'' : Sys} (ops : List Op) (op : Op) : Steps H s ops s' → Step H s' op s'' → Steps H s (ops ++ [op]) s''

end Fpki.IngestCmd
