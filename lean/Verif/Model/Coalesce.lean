import Verif.Model.Db

/-!
# Model of `RecomputeDirtyDomainsCertAndPolicyIDs` with its goroutines and SQL statements

`Verif.Model.Db` has one call of the stored procedure as one step and the partitions one after the other. Here every SQL statement of the procedure is a step of its own (the procedure has no transaction: each statement is committed when it ends), the workers of the partitions take their steps in any order, every statement can fail, and the process can end at any point.

Simplification: a statement is atomic, and one that fails has no effect (InnoDB rolls it back). Progress messages are left out.
-/
namespace Fpki.Coalesce
open Fpki.Db

/-- dirty.go:57-91 `DirtyCountNonCoalesced`: one query for each partition, and the sum. -/
def countNonCoalesced (db : DB) : Nat := ((List.range 32).map (fun p => db.dirty.countP (fun r => shardOf r.1 == p && !r.2))).sum

/-- dirty.go:22-55 `DirtyCount` -/
def dirtyCount (db : DB) : Nat := ((List.range 32).map (fun p => db.dirty.countP (fun r => shardOf r.1 == p))).sum

/-- The next statement of a worker. -/
inductive Pc where
  /-- create_schema.sh:231-248: counting the rows of the chunk -/
  | count
  /-- create_schema.sh:252-322 -/
  | replace
  /-- create_schema.sh:324-341 -/
  | delPayloads
  /-- create_schema.sh:343-361 -/
  | delDomains
  /-- create_schema.sh:363-378 -/
  | mark
  /-- dirty.go:260-262: the worker has returned. -/
  | ended
  /-- dirty.go:252-259 (or 241-245): the worker has returned with an error. -/
  | failed
deriving DecidableEq, Repr

/-- create_schema.sh:252-322: `REPLACE INTO domain_payloads`; `none`: the recursive query did not end within `fuel` rounds. -/
def stReplace (fuel chunk p : Nat) (db : DB) : Option DB :=
  ((chunkOf db p chunk).mapM (payloadOf fuel db)).map (fun rows => { db with payloads := replaceInto Payload.domain db.payloads rows })

/-- create_schema.sh:324-341: `DELETE dp FROM domain_payloads` -/
def stDelPayloads (chunk p : Nat) (db : DB) : DB :=
  { db with payloads := db.payloads.filter (fun r => !((chunkOf db p chunk).contains r.domain && r.certIds.isNone && r.policyIds.isNone)) }

/-- create_schema.sh:343-361: `DELETE dom FROM domains` -/
def stDelDomains (chunk p : Nat) (db : DB) : DB :=
  { db with domains := db.domains.filter (fun d => !((chunkOf db p chunk).contains d.1 && !db.payloads.any (fun r => r.domain == d.1))) }

/-- create_schema.sh:363-378: `UPDATE dirty` -/
def stMark (chunk p : Nat) (db : DB) : DB :=
  { db with dirty := db.dirty.map (fun r => if (chunkOf db p chunk).contains r.1 then (r.1, true) else r) }

/-- The next statement of the worker of partition `p` (dirty.go:250-267: the loop over the calls; create_schema.sh:220-381: the procedure). -/
def exec (fuel chunk p : Nat) (pc : Pc) (db : DB) : Option (DB × Pc) :=
  match pc with
  | .count => some (db, if (chunkOf db p chunk).length = 0 then .ended else .replace)
  | .replace => (stReplace fuel chunk p db).map (fun db => (db, .delPayloads))
  | .delPayloads => some (stDelPayloads chunk p db, .delDomains)
  | .delDomains => some (stDelDomains chunk p db, .mark)
  | .mark => some (stMark chunk p db, .count)
  | .ended => none
  | .failed => none

/-- The workers, by partition. -/
abbrev Workers := Nat → Pc

def Workers.put (w : Workers) (p : Nat) (pc : Pc) : Workers := fun q => if q = p then pc else w q

/-- dirty.go:205-212 and 235-249: the beginning of a run. -/
def start (db : DB) : Workers := if countNonCoalesced db = 0 then fun _ => .ended else fun _ => .count

/-- What can be reached from `db0` by runs one after the other. -/
inductive Reach (fuel chunk : Nat) (db0 : DB) : DB → Workers → Prop where
  /-- the first run begins -/
  | init : Reach fuel chunk db0 db0 (start db0)
  /-- a worker executes its next statement -/
  | step {db w db' pc} (p : Nat) (hp : p < 32) (h : Reach fuel chunk db0 db w) (he : exec fuel chunk p (w p) db = some (db', pc)) : Reach fuel chunk db0 db' (w.put p pc)
  /-- a statement or the connection of a worker fails -/
  | fail {db w} (p : Nat) (hp : p < 32) (h : Reach fuel chunk db0 db w) (he : w p ≠ .ended) : Reach fuel chunk db0 db (w.put p .failed)
  /-- the process has ended, at any point; another run begins -/
  | again {db w} (h : Reach fuel chunk db0 db w) : Reach fuel chunk db0 db (start db)

/-- dirty.go:268-279: all workers have returned, none with an error. -/
def ReturnsNil (w : Workers) : Prop := ∀ p < 32, w p = .ended

end Fpki.Coalesce
