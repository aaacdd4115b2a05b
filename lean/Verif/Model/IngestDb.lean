import Verif.Model.Batch
import Verif.Model.Db

/-!
# Model of what the ingest pipeline does to the DB: `pkg/mapserver/updater/{manager,certsWorker,domainWorker}.go`

The pipeline of `Manager` for one batch of files (cmd/ingest/main.go:164 makes a new one for each batch): the certificates go to cert batchers, whose batches are
loaded into `certs` by the cert inserters, and to domain extractors, whose output goes to domain batchers, whose batches are loaded into three tables by the domain
inserters. All workers run at the same time. Which worker handles what, and the size of the batches, are left open (every choice is allowed); the
files are loaded as in C77; stages and channels are those of C85.
-/
namespace Fpki.IngestDb
open Fpki.Db (DB insertIgnore replaceInto)
open Fpki.Batch (DirtyDomain lruContains lruAdd)

/-- types.go:30-36 `Certificate`: the row of the table `certs` and the names. -/
structure Item where
  row : Db.Cert
  names : List Bytes
deriving DecidableEq

/-- One statement sent to the DB. -/
inductive Stmt where
  /-- certsWorker.go:187 `InsertCsvIntoCerts` -/
  | certs (b : List Item)
  /-- domainWorker.go:172 `InsertCsvIntoDirty` -/
  | dirty (b : List DirtyDomain)
  /-- domainWorker.go:176 `InsertCsvIntoDomains` -/
  | domains (b : List DirtyDomain)
  /-- domainWorker.go:180 `InsertCsvIntoDomainCerts` -/
  | links (b : List DirtyDomain)
deriving DecidableEq

/-- certs.go:388-394 and 408-413, dirty.go:318-323, mysql.go:549-553: the effect of a statement. The rows of the files: csv.go:205-228. -/
def exec (db : DB) : Stmt → DB
  | .certs b => { db with certs := insertIgnore Db.Cert.id db.certs (b.map Item.row) }
  | .dirty b => { db with dirty := replaceInto Prod.fst db.dirty (b.map fun d => (d.domainID, false)) }
  | .domains b => { db with domains := insertIgnore Prod.fst db.domains (b.map fun d => (d.domainID, d.name)) }
  | .links b => { db with domainCerts := insertIgnore id db.domainCerts (b.map fun d => (d.domainID, d.certID)) }

/-- Statements one after another. -/
def execAll (l : List Stmt) (db : DB) : DB := l.foldl exec db

/-- certsWorker.go:101-124: the domain extractors, which share one LRU cache (manager.go:148) of `size` entries. State: the cache, the pairs of certificate and name looked
at, and what was sent. `Contains` and `AddIDs` are steps of their own, so that two extractors can look before either adds. -/
inductive Extract (H : Bytes → Bytes) (size : Nat) : List Bytes → List (Bytes × Bytes) → List DirtyDomain → Prop
  | start : Extract H size [] [] []
  /-- certsWorker.go:106: the cache contains the domain -/
  | skip {cache : List Bytes} {looked : List (Bytes × Bytes)} {out : List DirtyDomain} (c n : Bytes) (h : Extract H size cache looked out)
      (hin : lruContains cache (H n) = true) : Extract H size cache (looked ++ [(c, n)]) out
  /-- certsWorker.go:106-120: it does not; the domain is sent -/
  | emit {cache : List Bytes} {looked : List (Bytes × Bytes)} {out : List DirtyDomain} (c n : Bytes) (h : Extract H size cache looked out)
      (hin : lruContains cache (H n) = false) : Extract H size cache (looked ++ [(c, n)]) (out ++ [⟨H n, c, n⟩])
  /-- certsWorker.go:108: the extractor that found the domain missing adds it -/
  | add {cache : List Bytes} {looked : List (Bytes × Bytes)} {out : List DirtyDomain} (d : DirtyDomain) (h : Extract H size cache looked out) (hd : d ∈ out) :
      Extract H size (lruAdd size cache d.domainID) looked out

/-- certsWorker.go:104: what the extractors have to look at. -/
def pairs (items : List Item) : List (Bytes × Bytes) := items.flatMap fun c => c.names.map fun n => (c.row.id, n)

/-- Several workers at the same time: `out` is an interleaving of the sequences. -/
inductive Merge {α : Type} : List (List α) → List α → Prop
  | done {ls : List (List α)} (h : ∀ l ∈ ls, l = []) : Merge ls []
  | step {ls : List (List α)} {out : List α} (i : Nat) (x : α) (xs : List α) (hi : ls[i]? = some (x :: xs)) (h : Merge (ls.set i xs) out) : Merge ls (x :: out)

/-- certsWorker.go:172-193: the statements of one cert inserter. -/
def certThread (bs : List (List Item)) : List Stmt := bs.map .certs

/-- domainWorker.go:157-186: the statements of one domain inserter, three per batch in this order. -/
def domainThread (bs : List (List DirtyDomain)) : List Stmt := bs.flatMap fun b => [.dirty b, .domains b, .links b]

/-- manager.go:135-312: a run of the pipeline to its end, for these certificates: the statements in the order in which the DB gets them. A crash (or an error of the DB)
leaves a prefix of it. -/
def FullRun (H : Bytes → Bytes) (size : Nat) (items : List Item) (out : List Stmt) : Prop :=
  ∃ (cache : List Bytes) (looked : List (Bytes × Bytes)) (ds : List DirtyDomain) (cw : List (List (List Item))) (dw : List (List (List DirtyDomain))),
    Extract H size cache looked ds ∧ looked.Perm (pairs items) ∧ cw.flatten.flatten.Perm items ∧ dw.flatten.flatten.Perm ds ∧
    Merge (cw.map certThread ++ dw.map domainThread) out

end Fpki.IngestDb
