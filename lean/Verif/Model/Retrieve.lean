import Verif.Model.Db
import Verif.Model.Dirty
import Mathlib.Data.List.Forall2

/-!
# Model of the retrieval of domain entries: `pkg/db/mysql/mysql.go` (`RetrieveDomainEntries`, `RetrieveDomainEntriesDirtyOnes`, `retrieveDirtyDomainEntriesParallel`), `dirty.go` (`RetrieveDirtyDomains`)

The order of the rows of a query without ORDER BY is left open. A connection can break while the rows of a result are read: `rows.Next` then returns false, and `rows.Err` tells.
-/
namespace Fpki.Retrieve
open Fpki.Db (DB Payload)
open Fpki.Dirty (Entry)

/-- database/sql `Rows`: the rows that arrive, and whether the connection breaks after them. -/
structure Stream (α : Type) where
  rows : List α
  broken : Bool

/-- mysql.go:503-519 `collectRows`; `none` is an error. -/
def collectRows (scan : α → Option β) (s : Stream α) : Option (List β) :=
  match s.rows.mapM scan with
  | none => none
  | some items => if s.broken then none else some items

/-- dirty.go:100-111: the loop of `RetrieveDirtyDomains`, which does not ask for `rows.Err`. `common.SHA256Output(domainId)` panics if the column is shorter than 32 bytes; the column is BINARY(32)
(create_schema.sh), so that it is not. -/
def readDirty (s : Stream Bytes) : Option (List Bytes) := some s.rows

/-- mysql.go:524-536: a row becomes a record: all IDs of the two columns (NULL is the empty slice), sorted and glued. -/
def IsRecord (r : Payload) (e : Entry) : Prop :=
  e.domainID = r.domain ∧ Ids.SortIDsAndGlue (Ids.bytesToIDs (r.certIds.getD []) ++ Ids.bytesToIDs (r.policyIds.getD [])) e.payload

/-- mysql.go:367-387 `retrieveDirtyDomainEntriesSequential`: `WHERE domain_id IN (...)`. -/
def Sequential (db : DB) (ids : List Bytes) (out : List Entry) : Prop :=
  ∃ rows : List Payload, rows.Perm (db.payloads.filter fun r => ids.contains r.domain) ∧ List.Forall₂ IsRecord rows out

/-- mysql.go:186-195 `RetrieveDomainEntries` -/
def RetrieveEntries (db : DB) (ids : List Bytes) (out : List Entry) : Prop :=
  if ids.length = 0 then out = [] else Sequential db ids out

/-- The LEFT JOIN of mysql.go:203-209: the row of the domain, or one with NULL in its columns. -/
def leftJoin (db : DB) (id : Bytes) : Payload := (db.payloads.find? fun r => r.domain == id).getD ⟨id, none, none⟩

/-- mysql.go:205 `SELECT domain_id FROM dirty ORDER BY domain_id` -/
def dirtyIds (db : DB) : List Bytes := (db.dirty.map Prod.fst).mergeSort fun a b => !bytesLt b a

/-- mysql.go:210: `end-start` with uint64. -/
def pageSize (start stop : Nat) : Nat := (stop + 2 ^ 64 - start) % 2 ^ 64

/-- mysql.go:197-216 `RetrieveDomainEntriesDirtyOnes` -/
def DirtyOnes (db : DB) (start stop : Nat) (out : List Entry) : Prop :=
  ∃ rows : List Payload, rows.Perm ((((dirtyIds db).drop start).take (pageSize start stop)).map (leftJoin db)) ∧ List.Forall₂ IsRecord rows out

/-- mysql.go:23 -/
def numDBWorkers : Nat := 32

/-- mysql.go:318-337: the slices `domainIDs[s:e]` of the workers `from ≤ w < to`, given by `s` and `e`. -/
def bundler (offset fromWorker toWorker blockSize : Nat) : List (Nat × Nat) :=
  if blockSize ≤ 0 then [] else (List.range (toWorker - fromWorker)).map fun i => (offset + i * blockSize, offset + i * blockSize + blockSize)

/-- mysql.go:343-350: the slices of all workers. -/
def slices (n : Nat) : List (Nat × Nat) :=
  let withExtra := n % numDBWorkers
  let size := n / numDBWorkers
  bundler 0 0 withExtra (size + 1) ++ bundler (withExtra * (size + 1)) withExtra numDBWorkers size

/-- `l[s:e]` -/
def slice (l : List α) (p : Nat × Nat) : List α := (l.take p.2).drop p.1

/-- mysql.go:309-366 `retrieveDirtyDomainEntriesParallel` (called by nobody), without errors: the results of the workers one after another. -/
def Parallel (db : DB) (ids : List Bytes) (out : List Entry) : Prop :=
  ∃ outs : List (List Entry), List.Forall₂ (fun p o => Sequential db (slice ids p) o) (slices ids.length) outs ∧ out = outs.flatten

end Fpki.Retrieve
