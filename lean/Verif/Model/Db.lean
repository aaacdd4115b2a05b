import Verif.Model.Chains
import Verif.Model.Ids

/-!
# Model of the MySQL tables and of the code that fills them
`tools/create_schema.sh` (tables and stored procedures), `pkg/db/mysql/{certs,dirty,policies,mysql}.go`, `pkg/mapserver/updater/updater.go`.

A table is the list of its rows; its primary key is enforced by the insertion functions. Every SQL statement is atomic. DB errors, CSV encoding and
temporary files are not modelled. Times are seconds (the columns are DATETIME).
-/
namespace Fpki.Db
open Fpki.Chains (X509)

/-- create_schema.sh: a row of `certs` or `policies`. The parent of a root is the empty string: `FROM_BASE64('')` (certs.go:391). -/
structure Cert where
  id : Bytes
  parent : Bytes
  expiration : Nat
  payload : Bytes
deriving DecidableEq, Repr

/-- create_schema.sh:115-132 `domain_payloads`; `none` is NULL. The two hash columns are determined by the other ones and left out. -/
structure Payload where
  domain : Bytes
  certIds : Option Bytes
  policyIds : Option Bytes
deriving DecidableEq, Repr

/-- The tables. -/
structure DB where
  certs : List Cert
  domains : List (Bytes × Bytes)
  domainCerts : List (Bytes × Bytes)
  policies : List Cert
  domainPolicies : List (Bytes × Bytes)
  payloads : List Payload
  dirty : List (Bytes × Bool)
deriving DecidableEq

/-- `LOAD DATA ... IGNORE` / `INSERT IGNORE`: rows whose key exists are ignored. -/
def insertIgnore [BEq κ] (key : α → κ) (t : List α) (rows : List α) : List α :=
  rows.foldl (fun t r => if t.any (fun x => key x == key r) then t else t ++ [r]) t

/-- `LOAD DATA ... REPLACE` / `REPLACE INTO`: rows whose key exists are replaced. -/
def replaceInto [BEq κ] (key : α → κ) (t : List α) (rows : List α) : List α :=
  rows.foldl (fun t r => t.filter (fun x => !(key x == key r)) ++ [r]) t

/-! ## Presence of IDs -/

/-- mysql.go:21 -/
def batchSize : Nat := 1000

/-- certs.go:323-366 `checkCertsExist` writes into a part of the result slice. -/
def writeAt (l : List Bool) (i : Nat) (vals : List Bool) : List Bool := l.take i ++ vals ++ l.drop (i + vals.length)

/-- certs.go:30-35: the loop -/
def checkLoop (stored : Bytes → Bool) (ids : List Bytes) (i : Nat) (presence : List Bool) : List Bool :=
  if i + batchSize < ids.length then
    checkLoop stored ids (i + batchSize) (writeAt presence i (((ids.drop i).take batchSize).map stored))
  else presence
termination_by ids.length - i
decreasing_by simp only [batchSize] at *; omega

/-- certs.go:22-45 `CheckCertsExist` -/
def checkCertsExist (stored : Bytes → Bool) (ids : List Bytes) : List Bool :=
  if ids.length = 0 then []
  else
    let presence := checkLoop stored ids 0 (List.replicate ids.length false)
    let start := ids.length / batchSize * batchSize
    let stop := start + ids.length % batchSize
    if stop > start then writeAt presence start (((ids.drop start).take (stop - start)).map stored) else presence

/-- policies.go:16-64 `CheckPoliciesExist`: one query for all IDs; its GROUP_CONCAT is cut at `group_concat_max_len`, here `maxLen` (1024 unless the server
is configured otherwise). -/
def checkPoliciesExist (maxLen : Nat) (stored : Bytes → Bool) (ids : List Bytes) : List Bool :=
  writeAt (List.replicate ids.length false) 0 ((ids.map stored).take maxLen)

/-! ## Inserting certificates -/

/-- certs.go:72-84: the records of `updateCertsCSV`; `none` is the panic when a slice is too short. -/
def certRows : List Bytes → List (Option Bytes) → List Nat → List Bytes → Option (List Cert)
  | [], _, _, _ => some []
  | i :: is, p :: ps, e :: es, pl :: pls => (certRows is ps es pls).map (⟨i, p.getD [], e, pl⟩ :: ·)
  | _ :: _, _, _, _ => none

/-- updater.go:592-612: one entry per name. -/
def nameRows (H : Bytes → Bytes) (names : List (List Bytes)) (ids : List Bytes) : List (Bytes × Bytes × Bytes) :=
  (names.zip ids).flatMap (fun p => p.1.map (fun n => (H n, n, p.2)))

/-- updater.go:575-625 `insertCerts`: the statements sent to the DB, in order; `none` is a panic. A crash can happen
between any two of them. -/
def insertSteps (H : Bytes → Bytes) (names : List (List Bytes)) (ids : List Bytes) (parents : List (Option Bytes)) (exps : List Nat)
    (payloads : List Bytes) : Option (List (DB → DB)) :=
  if ids.length = 0 then some []
  else
    match certRows ids parents exps payloads with
    | none => none
    | some rows =>
      let nr := nameRows H names ids
      some [fun db => { db with certs := insertIgnore Cert.id db.certs rows },
        fun db => { db with dirty := replaceInto Prod.fst db.dirty (nr.map (fun r => (r.1, false))) },
        fun db => { db with domains := insertIgnore Prod.fst db.domains (nr.map (fun r => (r.1, r.2.1))) },
        fun db => { db with domainCerts := insertIgnore id db.domainCerts (nr.map (fun r => (r.1, r.2.2))) }]

/-- Running statements. -/
def runSteps (steps : List (DB → DB)) (db : DB) : DB := steps.foldl (fun db f => f db) db

/-- updater.go:679-688 `runWhenFalse` -/
def runWhenFalse (mask : List Bool) (fcn : Nat → Nat → σ → σ) (s : σ) : σ × Nat :=
  (mask.zipIdx).foldl (fun acc p => if !p.1 then (fcn acc.2 p.2 acc.1, acc.2 + 1) else acc) (s, 0)

/-- The slices of a batch. -/
structure Slices where
  ids : List Bytes
  names : List (List Bytes)
  parents : List (Option Bytes)
  payloads : List Bytes

/-- updater.go:393-404: moving the data of the new certificates to the front. Simplification: `Raw` is the payload;
the slices have the same length (the code panics otherwise). -/
def compact (raws : List Bytes) (mask : List Bool) (s : Slices) : Slices :=
  let r := (runWhenFalse mask (fun dst frm (s : Slices) =>
    { ids := s.ids.set dst (s.ids.getD frm [])
      names := s.names.set dst (s.names.getD frm [])
      parents := s.parents.set dst (s.parents.getD frm none)
      payloads := s.payloads ++ [raws.getD frm []] }) { s with payloads := [] }).1
  { r with ids := r.ids.take r.payloads.length, names := r.names.take r.payloads.length, parents := r.parents.take r.payloads.length }

/-- updater.go:370-412 `UpdateWithKeepExisting` (certificates): the statements sent to the DB. -/
def keepExistingSteps (H : Bytes → Bytes) (db : DB) (names : List (List Bytes)) (ids : List Bytes) (parents : List (Option Bytes))
    (raws : List Bytes) (exps : List Nat) : Option (List (DB → DB)) :=
  let mask := checkCertsExist (fun id => db.certs.any (fun c => c.id == id)) ids
  let s := compact raws mask ⟨ids, names, parents, []⟩
  insertSteps H s.names s.ids s.parents exps s.payloads

/-- `UpdateWithKeepExisting` without a crash. -/
def updateWithKeepExisting (H : Bytes → Bytes) (db : DB) (names : List (List Bytes)) (ids : List Bytes) (parents : List (Option Bytes))
    (raws : List Bytes) (exps : List Nat) : Option DB :=
  (keepExistingSteps H db names ids parents raws exps).map (fun st => runSteps st db)

/-- updater.go:334-349 `UpdateWithOverwrite` (certificates) -/
def updateWithOverwrite (H : Bytes → Bytes) (db : DB) (names : List (List Bytes)) (ids : List Bytes) (parents : List (Option Bytes))
    (raws : List Bytes) (exps : List Nat) : Option DB :=
  (insertSteps H names ids parents exps raws).map (fun st => runSteps st db)

/-- updater.go:289-320 `updateCertBatch` -/
def updateCertBatch (H : Bytes → Bytes) (db : DB) (leaves : List X509) (chains : List (List X509)) : Option DB :=
  let u := Chains.unfoldCerts H leaves chains
  updateWithKeepExisting H db (u.names.map (·.getD [])) u.ids u.parents (u.certs.map X509.raw) (Chains.extractExpirations u.certs)

/-- updater.go:193-223 `UpdateCertsLocally`: the expirations are those of the leaves only. -/
def updateCertsLocally (H : Bytes → Bytes) (db : DB) (leaves : List X509) (chains : List (List X509)) : Option DB :=
  let u := Chains.unfoldCerts H leaves chains
  updateWithKeepExisting H db (u.names.map (·.getD [])) u.ids u.parents (u.certs.map X509.raw) (Chains.extractExpirations leaves)

/-! ## Inserting policies -/

/-- updater.go:654-658: the expiration of all policies, the year 3000 (its value plays no role). -/
def year3000 : Nat := 32503680000

/-- updater.go:634-676 `insertPolicies`, policies.go:66-126, dirty.go:150-183: the statements sent to the DB, in order. Policies have no parents. -/
def insertPolicySteps (H : Bytes → Bytes) (subjects ids payloads : List Bytes) : Option (List (DB → DB)) :=
  if ids.length = 0 then some []
  else
    match certRows ids (List.replicate ids.length none) (List.replicate ids.length year3000) payloads with
    | none => none
    | some rows =>
      some [fun db => { db with dirty := replaceInto Prod.fst db.dirty (subjects.map (fun n => (H n, false))) },
        fun db => { db with domains := insertIgnore Prod.fst db.domains (subjects.map (fun n => (H n, n))) },
        fun db => { db with policies := replaceInto Cert.id db.policies rows },
        fun db => { db with domainPolicies := insertIgnore id db.domainPolicies ((subjects.map H).zip ids) }]

/-- dirty.go:187-195 `CleanupDirty` -/
def cleanupDirty (db : DB) : DB := { db with dirty := [] }

/-! ## Pruning -/

/-- create_schema.sh:405-420: the recursive query (UNION ALL); `none` if it does not end within `fuel` rounds. -/
def expiredLoop (certs : List Cert) : Nat → List Bytes → List Bytes → Option (List Bytes)
  | 0, _, _ => none
  | fuel + 1, res, work =>
    let next := work.flatMap (fun w => (certs.filter (fun c => c.parent == w)).map Cert.id)
    if next = [] then some res else expiredLoop certs fuel (res ++ next) next

/-- create_schema.sh:396-432 `prune_expired`, certs.go:367-375 -/
def pruneCerts (fuel : Nat) (db : DB) (cut : Nat) : Option DB :=
  let base := (db.certs.filter (fun c => decide (c.expiration < cut))).map Cert.id
  match expiredLoop db.certs fuel base base with
  | none => none
  | some ids =>
    some { db with
      dirty := replaceInto Prod.fst db.dirty (((db.domainCerts.filter (fun l => ids.contains l.2)).map Prod.fst).eraseDups.map (fun d => (d, false)))
      certs := db.certs.filter (fun c => !ids.contains c.id) }

/-! ## Coalescing -/

/-- create_schema.sh:265-277: the recursive query (UNION, so rows are not repeated): all certificates reachable by parent links. -/
def closureLoop (certs : List Cert) : Nat → List Cert → List Cert → Option (List Cert)
  | 0, _, _ => none
  | fuel + 1, res, work =>
    let next := certs.filter (fun c => work.any (fun w => w.parent == c.id) && !res.contains c)
    if next = [] then some res else closureLoop certs fuel (res ++ next) next

/-- create_schema.sh:266-269: the certificates linked to the domain. -/
def linked (certs : List Cert) (links : List (Bytes × Bytes)) (d : Bytes) : List Cert :=
  certs.filter (fun c => links.contains (d, c.id))

/-- create_schema.sh:278-282: `GROUP_CONCAT(cert_id ORDER BY cert_id)`; NULL without rows. -/
def glue (rows : List Cert) : Option Bytes :=
  if rows = [] then none else some (Ids.idsToBytes ((rows.map Cert.id).mergeSort (fun a b => !bytesLt b a)))

/-- create_schema.sh:265-298: certificates or policies of one domain. -/
def aggregate (fuel : Nat) (certs : List Cert) (links : List (Bytes × Bytes)) (d : Bytes) : Option (Option Bytes) :=
  let l := linked certs links d
  (closureLoop certs fuel l l).map glue

/-- create_schema.sh: `shard` column and partition of a domain. -/
def shardOf (d : Bytes) : Nat := (d.headD 0).toNat / 8

/-- create_schema.sh:257-264: the chunk of dirty domains of a partition, in the order of their IDs. -/
def chunkOf (db : DB) (p chunk : Nat) : List Bytes :=
  (((db.dirty.filter (fun r => shardOf r.1 == p && !r.2)).map Prod.fst).mergeSort (fun a b => !bytesLt b a)).take chunk

/-- create_schema.sh:265-311: the new row of a domain. -/
def payloadOf (fuel : Nat) (db : DB) (d : Bytes) : Option Payload :=
  match aggregate fuel db.certs db.domainCerts d, aggregate fuel db.policies db.domainPolicies d with
  | some c, some pol => some (Payload.mk d c pol)
  | _, _ => none

/-- create_schema.sh:217-381 `calc_dirty_domains`: the new tables and the number of processed domains. `none`: a query
did not end within `fuel` rounds. -/
def calcDirtyDomains (fuel : Nat) (db : DB) (p chunk : Nat) : Option (DB × Nat) :=
  let ch := chunkOf db p chunk
  if ch.length = 0 then some (db, 0)
  else
    match ch.mapM (payloadOf fuel db) with
    | none => none
    | some rows =>
      let payloads := (replaceInto Payload.domain db.payloads rows).filter (fun r => !(ch.contains r.domain && r.certIds.isNone && r.policyIds.isNone))
      some ({ db with
        payloads := payloads
        domains := db.domains.filter (fun d => !(ch.contains d.1 && !payloads.any (fun r => r.domain == d.1)))
        dirty := db.dirty.map (fun r => if ch.contains r.1 then (r.1, true) else r) }, ch.length)

/-- dirty.go:237-262: the worker of one partition; at most `n` calls. -/
def coalescePartition (fuel chunk p : Nat) : Nat → DB → Option DB
  | 0, _ => none
  | n + 1, db =>
    match calcDirtyDomains fuel db p chunk with
    | none => none
    | some (db', k) => if k = 0 then some db' else coalescePartition fuel chunk p n db'

/-- dirty.go:203-280 `RecomputeDirtyDomainsCertAndPolicyIDs`. Simplification: the partitions one after another (the workers touch
disjoint rows). -/
def recomputeDirty (fuel chunk n : Nat) (db : DB) : Option DB :=
  (List.range 32).foldlM (fun db p => coalescePartition fuel chunk p n db) db

end Fpki.Db
