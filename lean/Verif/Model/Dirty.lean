import Verif.Model.Ids
import Verif.Model.Smt

/-!
# Model of reading the dirty domains and updating the trie with them:
`pkg/db/mysql/mysql.go` (`RetrieveDomainEntriesDirtyBundle`) and `pkg/mapserver/updater/updater.go` (`UpdateSMT`)

The `dirty` table is given by its partitions: `parts p` are the rows of partition `p` in the order of `ORDER BY domain_id`. DB errors
are not modelled, and nobody else writes to the table meanwhile.
-/
namespace Fpki.Dirty
open Fpki.Smt (KVs Node updateRoot)

/-- mysql.go:27 `NumPartitions` -/
def numPartitions : Nat := 32

/-- pkg/db/db.go `DirtyDomainEntriesCursor`; the slices have `NumPartitions` elements, here functions of the
partition. -/
structure Cursor where
  offsets : Nat → Nat
  exhausted : Nat → Bool
  next : Nat

/-- mysql.go:452-472 `normalizeDirtyDomainEntriesCursor` -/
def normalize (c : Option Cursor) : Cursor :=
  match c with
  | none => { offsets := fun _ => 0, exhausted := fun _ => false, next := 0 }
  | some c => { c with next := c.next % numPartitions }

/-- mysql.go:474-484 `activeDirtyPartitions` -/
def active (c : Cursor) : List Nat :=
  ((List.range numPartitions).map (fun i => (c.next + i) % numPartitions)).filter (fun p => !c.exhausted p)

/-- mysql.go:486-501 `distributeDirtyBundleRequests`: the limit of each active partition, as pairs (the array of the code is
indexed by the partition). -/
def distribute (act : List Nat) (remaining : Nat) : List (Nat × Nat) :=
  act.zipIdx.map (fun p => (p.1, remaining / act.length + if p.2 < remaining % act.length then 1 else 0))

/-- mysql.go:419-450 `retrieveDirtyDomainIDsForPartition`: `LIMIT offset, limit`. -/
def fetch (parts : Nat → List α) (c : Cursor) (r : Nat × Nat) : List α := ((parts r.1).drop (c.offsets r.1)).take r.2

/-- mysql.go:237-292: one iteration of the loop, `remaining` rows wanted: the rows appended to the bundle and the new cursor.
The goroutines of the partitions only write to their own slots. -/
def iterate (parts : Nat → List α) (c : Cursor) (remaining : Nat) : List α × Cursor :=
  let reqs := distribute (active c) remaining
  (reqs.flatMap (fetch parts c),
   { offsets := fun p => match reqs.lookup p with
       | some l => c.offsets p + (fetch parts c (p, l)).length
       | none => c.offsets p
     exhausted := fun p => match reqs.lookup p with
       | some l => c.exhausted p || decide ((fetch parts c (p, l)).length < l)
       | none => c.exhausted p
     next := ((active c).headD 0 + 1) % numPartitions })

/-- mysql.go:231-295: the loop; `none` when the iterations exceed `fuel`. Result: bundle, cursor, done. -/
def bundleLoop (parts : Nat → List α) (max : Nat) : Nat → Cursor → List α → Option (List α × Cursor × Bool)
  | 0, _, _ => none
  | fuel + 1, c, bundle =>
    if bundle.length < max then
      if (active c).length = 0 then some (bundle, c, true)
      else
        let r := iterate parts c (max - bundle.length)
        bundleLoop parts max fuel r.2 (bundle ++ r.1)
    else some (bundle, c, decide ((active c).length = 0))

/-- mysql.go:218-296 `RetrieveDomainEntriesDirtyBundle`; `none` is the error for a bundle size of 0 (or more than
`fuel` iterations). -/
def retrieveBundle (parts : Nat → List α) (fuel : Nat) (c : Option Cursor) (max : Nat) : Option (List α × Cursor × Bool) :=
  if max = 0 then none else bundleLoop parts max fuel (normalize c) []

/-- The loop of updater.go:448-487 `updateSMTfromDirty` over the bundles; `max i` is the bundle size of call `i` (the code uses the same
for all). -/
def collect (parts : Nat → List α) (fuel : Nat) (max : Nat → Nat) : Nat → Nat → Option Cursor → Option (List (List α))
  | 0, _, _ => none
  | n + 1, i, c =>
    match retrieveBundle parts fuel c (max i) with
    | none => none
    | some (b, c', done) =>
      if b.length = 0 then some []
      else if done then some [b]
      else (collect parts fuel max n (i + 1) (some c')).map (b :: ·)

/-! ## SMT input -/

/-- pkg/db/db.go `DomainEntryRecord` -/
structure Entry where
  domainID : Bytes
  payload : Bytes
deriving DecidableEq, Repr

/-- mysql.go:389-415 `retrieveDirtyDomainEntriesPreserveMissing`: the payload of each domain ID, nil if there is none.
`payloads` is the result of the query (mysql.go:518-531), one row for each domain with a payload. -/
def entriesPreserveMissing (payloads : Bytes → Option Bytes) (ids : List Bytes) : List Entry :=
  ids.map (fun id => ⟨id, (payloads id).getD []⟩)

/-- updater.go:694-706: key and value of one entry; `none` is `DefaultLeaf`. -/
def toKV (H : Bytes → Bytes) (e : Entry) : Bytes × Option Bytes :=
  (e.domainID, if e.payload.length = 0 then none else some (H e.payload))

/-- updater.go:688-733 `domainEntriesToSMTInput`; a relation because `sort.Slice` is. -/
def ToSMTInput (H : Bytes → Bytes) (es : List Entry) (kvs : KVs) : Prop :=
  Ids.GoSorted (fun a b => bytesLt a.1 b.1) (es.map (toKV H)) kvs

/-- updater.go:489-527 `updateSMTFromDomainEntries` for all bundles, on the tree. -/
inductive SmtFromBundles (H : Bytes → Bytes) (n : Nat) : Node → List (List Entry) → Node → Prop
  | nil (t : Node) : SmtFromBundles H n t [] t
  | cons (t t' : Node) (b : List Entry) (bs : List (List Entry)) (kvs : KVs) (hk : ToSMTInput H b kvs)
      (hr : SmtFromBundles H n (updateRoot n t kvs) bs t') : SmtFromBundles H n t (b :: bs) t'

end Fpki.Dirty
