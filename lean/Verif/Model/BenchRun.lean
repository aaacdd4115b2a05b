import Verif.Model.Bench

/-!
# A run of the benchmark of coalescing, and how it is checked

Models `runFullSample` of `cmd/bench-coalesce/main.go`: the old stored procedure (testdata/calc_dirty_domains_old.sql), and the checks after a run. The new procedure
(testdata/calc_dirty_domains_new.sql) is that of `tools/create_schema.sh`, see `Fpki.Db.recomputeDirty`; simplification: its recursion keeps repeated rows until it has ended.

Simplifications: the partitions one after another (the workers touch disjoint rows; C191); `UNION ALL` in the recursion of the old procedure followed by `DISTINCT` is modelled as
`UNION` (the same if no certificate is its own ancestor); columns with a hash and a length are computed from the column itself, with any function `H` as hash.
-/
namespace Fpki.Bench
open Fpki.Db

/-! ## The old procedure -/

/-- calc_dirty_domains_old.sql:11-23, 25-37: the certificates (policies) of a domain and their ancestors. -/
def closureOf (fuel : Nat) (certs : List Cert) (links : List (Bytes × Bytes)) (d : Bytes) : Option (List Cert) :=
  closureLoop certs fuel (linked certs links d) (linked certs links d)

/-- calc_dirty_domains_old.sql:11-38: `A LEFT OUTER JOIN B`, the rows of one domain: IDs of certificates and of policies. -/
def leftJoin (A B : List Cert) : List (Option Bytes × Option Bytes) :=
  A.flatMap (fun a => if B = [] then [(some a.id, none)] else B.map (fun b => (some a.id, some b.id)))

/-- calc_dirty_domains_old.sql:44-71: `A RIGHT OUTER JOIN B`. -/
def rightJoin (A B : List Cert) : List (Option Bytes × Option Bytes) :=
  B.flatMap (fun b => if A = [] then [(none, some b.id)] else A.map (fun a => (some a.id, some b.id)))

/-- `GROUP_CONCAT(x ORDER BY x SEPARATOR '')`: NULLs are left out; repeated values are not. -/
def groupConcat (col : List (Option Bytes)) : Option Bytes :=
  if col.filterMap id = [] then none else some (Ids.idsToBytes ((col.filterMap id).mergeSort (fun a b => !bytesLt b a)))

/-- calc_dirty_domains_old.sql:10, 39: `GROUP BY domain_id`. -/
def groupRow (d : Bytes) (rows : List (Option Bytes × Option Bytes)) : List Payload :=
  if rows = [] then [] else [⟨d, groupConcat (rows.map Prod.fst), groupConcat (rows.map Prod.snd)⟩]

/-- calc_dirty_domains_old.sql:10-72: the rows of a domain, `UNION` of both joins. -/
def oldRows (fuel : Nat) (db : DB) (d : Bytes) : Option (List Payload) :=
  match closureOf fuel db.certs db.domainCerts d, closureOf fuel db.policies db.domainPolicies d with
  | some A, some B => some (groupRow d (leftJoin A B) ++ groupRow d (rightJoin A B)).eraseDups
  | _, _ => none

/-- calc_dirty_domains_old.sql:1-79: one call of the procedure. -/
def calcOld (fuel : Nat) (db : DB) (p : Nat) : Option DB :=
  (((db.dirty.filter (fun r => shardOf r.1 == p)).map Prod.fst).mapM (oldRows fuel db)).map (fun rows => { db with payloads := replaceInto Payload.domain db.payloads rows.flatten })

/-- main.go:1246-1254 `runCoalescingWithWorkers` of the old variant. -/
def runOld (fuel : Nat) (db : DB) : Option DB := (List.range partitionCount).foldlM (calcOld fuel) db

/-! ## Checking a run -/

/-- main.go:68-75 `variant`: what is expected of a run. -/
structure Variant where
  expectDomainRows : Bool
  expectStaleGone : Bool

/-- main.go:78-83. -/
def oldVariant : Variant := ⟨true, false⟩

/-- main.go:84-91. -/
def newVariant : Variant := ⟨false, true⟩

/-- main.go:147-153 `expectedPayloadRow`. -/
structure Expect where
  domain : Bytes
  certIdsId : Option Bytes
  certLen : Nat
  policyIdsId : Option Bytes
  policyLen : Nat

/-- `OCTET_LENGTH` and main.go:1027-1032 `nullIntValue`. -/
def colLen (c : Option Bytes) : Nat := (c.map List.length).getD 0

/-- main.go:1437-1443, 1452-1456: hash and length of the columns. -/
def expectOf (H : Bytes → Bytes) (r : Payload) : Expect := ⟨r.domain, r.certIds.map H, colLen r.certIds, r.policyIds.map H, colLen r.policyIds⟩

/-- main.go:468-470 and `ORDER BY d.domain_id`. -/
def byDomain (rows : List Payload) : List Payload := rows.mergeSort (fun a b => !bytesLt b.domain a.domain)

/-- main.go:897-901, 957-960: the payloads joined with the domains, of which the names are (not) those of stale domains. -/
def joined (db : DB) (stale : Bool) : List Payload :=
  db.payloads.flatMap (fun r => (db.domains.filter (fun x => x.1 == r.domain && staleName x.2 == stale)).map (fun _ => r))

/-- main.go:1011-1025 `compareOptionalID`. -/
def compareOptionalID : Option Bytes → Option Bytes → Bool
  | got, none => got.isNone
  | none, some _ => false
  | some g, some w => g == w

/-- main.go:965-1007: the rows of the query against the expected ones. -/
def validateLoop (H : Bytes → Bytes) : List Payload → List Expect → Bool
  | [], [] => true
  | [], _ :: _ => false
  | _ :: _, [] => false
  | g :: gs, e :: es =>
    g.domain == e.domain && compareOptionalID (g.certIds.map H) e.certIdsId && colLen g.certIds == e.certLen && compareOptionalID (g.policyIds.map H) e.policyIdsId &&
      colLen g.policyIds == e.policyLen && validateLoop H gs es

/-- main.go:954-1009 `validateActivePayloads`. -/
def validateActivePayloads (H : Bytes → Bytes) (f : Files) (db : DB) : Bool := validateLoop H (byDomain (joined db false)) ((byDomain f.expected).map (expectOf H))

/-- main.go:877-952 `collectAndValidateFullRun`: whether a run is accepted. -/
def collectAndValidateFullRun (H : Bytes → Bytes) (v : Variant) (p : Plan) (dirtyDomains : Nat) (f : Files) (db : DB) : Bool :=
  let active := dirtyDomains - p.staleCount
  validateActivePayloads H f db &&
    db.payloads.length == (if v.expectStaleGone then active else active + p.staleCount) &&
    db.domains.length == (if v.expectDomainRows then dirtyDomains else active) &&
    (joined db true).length == (if v.expectStaleGone then 0 else p.staleCount) &&
    (db.domains.filter (fun x => staleName x.2)).length == (if v.expectDomainRows then p.staleCount else 0)

end Fpki.Bench
