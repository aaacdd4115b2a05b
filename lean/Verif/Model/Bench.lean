import Mathlib.Data.List.Sort
import Verif.Model.Batch
import Verif.Model.Db

/-!
# The benchmark of coalescing

Models `cmd/bench-coalesce/main.go`: the workers that coalesce the partitions, how the synthetic workload is divided among the partitions, the rows that are generated and the
payloads that are expected after a run.

Simplifications: floating point numbers are exact (the weights 1.0, 0.9 and 0.75 are the integers 20, 18 and 15, since only their ratio matters); hashes and lengths of payload columns
are replaced by the columns themselves; the expiration and the payloads of certificates are constants; errors of files and of the DB while the fixture is prepared are left out.
-/
namespace Fpki.Bench
open Fpki.Db

/-- main.go:58 `partitionCount`. -/
def partitionCount : Nat := 32

/-! ## The workers -/

/-- A worker goroutine of main.go:1293-1306: waiting for a partition, in `callPartition`, or ended. -/
inductive Worker where
  | idle
  | busy (p : Nat)
  | gone
deriving DecidableEq, Repr

/-- The state of a call of `callPartitionsWithWorkers`: the next partition to be sent, whether the channel is closed, the workers, the calls begun (in their order), the calls ended
with their errors, the array `errs`, and the value returned (the errors by partition). The lists `calls` and `outs` are the observable history. -/
structure Farm (ε : Type) where
  next : Nat
  closed : Bool
  workers : List Worker
  calls : List Nat
  outs : List (Nat × Option ε)
  errs : Nat → Option ε
  result : Option (List (Nat × ε))

/-- What can happen next: main sends a partition to a waiting worker (the channel has no buffer), a call returns, main closes the channel, a worker ends, main returns. -/
inductive Event (ε : Type) where
  | send (w : Nat)
  | finish (w : Nat) (e : Option ε)
  | close
  | exit (w : Nat)
  | ret

/-- main.go:1281-1293: the number of workers is limited by the number of partitions; with none or fewer the call is refused (`none`). -/
def start (ε : Type) (n : Nat) (workers : Int) : Option (Farm ε) :=
  if workers ≤ 0 then none
  else some ⟨0, false, List.replicate (min workers.toNat n) .idle, [], [], fun _ => none, none⟩

/-- main.go:1293-1318, for `n` partitions. `wg.Wait` returns when all workers have ended; `ErrorsCoalesce` keeps the errors in the order of the partitions. -/
def exec (n : Nat) (s : Farm ε) : Event ε → Option (Farm ε)
  | .send w =>
    if s.next < n ∧ s.workers[w]? = some .idle then some { s with next := s.next + 1, workers := s.workers.set w (.busy s.next), calls := s.calls ++ [s.next] } else none
  | .finish w e =>
    match s.workers[w]? with
    | some (.busy p) =>
      some { s with workers := s.workers.set w .idle, outs := s.outs ++ [(p, e)], errs := fun q => if q = p then (match e with | some x => some x | none => s.errs q) else s.errs q }
    | _ => none
  | .close => if s.next = n ∧ s.closed = false then some { s with closed := true } else none
  | .exit w => if s.closed = true ∧ s.workers[w]? = some .idle then some { s with workers := s.workers.set w .gone } else none
  | .ret =>
    if s.closed = true ∧ s.result = none ∧ ∀ x ∈ s.workers, x = Worker.gone then
      some { s with result := some ((List.range n).filterMap (fun p => (s.errs p).map (fun e => (p, e)))) } else none

/-- `Run n s k t`: in `k` steps from `s` to `t`. -/
inductive Run (n : Nat) : Farm ε → Nat → Farm ε → Prop where
  | refl (s) : Run n s 0 s
  | step {s k t u} (e : Event ε) : Run n s k t → exec n t e = some u → Run n s (k + 1) u

/-! ## Dividing the work -/

/-- main.go:1349-1352: the integer part for every weight. -/
def floors (total : Nat) (weights : List Nat) : List Nat := weights.map (fun w => total * w / weights.sum)

/-- main.go:1353: the fractional parts, times the sum of the weights. -/
def remAt (total : Nat) (weights : List Nat) (i : Nat) : Nat := total * weights.getD i 0 % weights.sum

/-- main.go:1355-1360: the order of the indices: greater fractional part first, then smaller index. -/
def before (total : Nat) (weights : List Nat) (i j : Nat) : Prop :=
  remAt total weights j < remAt total weights i ∨ (remAt total weights i = remAt total weights j ∧ i ≤ j)

instance (total : Nat) (weights : List Nat) : DecidableRel (before total weights) := fun i j => by unfold before; infer_instance

/-- main.go:1334-1366 `largestRemainder`; `none`: index out of range. -/
def largestRemainder (total : Nat) (weights : List Nat) : Option (List Nat) :=
  if total = 0 ∨ weights.sum = 0 then some (weights.map (fun _ => 0))
  else
    let order := (List.range weights.length).insertionSort (before total weights)
    let left := total - (floors total weights).sum
    if order.length < left then none
    else some ((order.take left).foldl (fun r i => r.modify i (· + 1)) (floors total weights))

/-- The flag `-partition-skew` (main.go:260, 290-294): every other value is refused by `parseFlags`. -/
inductive Skew where
  | no
  | little
  | large
deriving DecidableEq, Repr

/-- main.go:1197-1216: the weights of the partitions. -/
def weightsOf : Skew → List Nat
  | .no => List.replicate 32 20
  | .little => List.replicate 30 20 ++ List.replicate 2 18
  | .large => List.replicate 16 20 ++ List.replicate 16 15

/-- main.go:1196-1218 `distributeBySkew`. -/
def distributeBySkew (total : Nat) (skew : Skew) : Option (List Nat) := largestRemainder total (weightsOf skew)

/-- main.go:1320-1332 `allocatePerPartition`; `none`: a panic. -/
def allocatePerPartition (capacity : List Nat) (total : Nat) : Option (List Nat) :=
  match largestRemainder total capacity with
  | none => none
  | some out => if (out.zip capacity).any (fun x => x.2 < x.1) then none else some out

/-- main.go:1220-1231 `mixedDomainsForBalance` (`math.Round`: halves are rounded up). -/
def mixedDomainsForBalance (active balance : Nat) : Nat :=
  if active = 0 ∨ balance = 0 then 0 else min ((2 * (active * 4 * balance) + 300) / 600) active

/-- What `buildFixture` computes before it writes (main.go:330-355): for all partitions the number of domains, those with certificates only, with certificates and policies, and stale
ones (which may be negative). -/
structure Plan where
  total : List Nat
  certOnly : List Nat
  mixed : List Nat
  stale : List Int
  certOnlyCount : Nat
  mixedCount : Nat
  staleCount : Nat

/-- main.go:330-355. -/
def plan (dirty : Nat) (skew : Skew) (balance : Nat) : Option Plan :=
  let staleCount := dirty * 5 / 1000
  let active := dirty - staleCount
  let mixedCount := mixedDomainsForBalance active balance
  let certOnlyCount := active - mixedCount
  match distributeBySkew dirty skew with
  | none => none
  | some total =>
    match allocatePerPartition total certOnlyCount, allocatePerPartition total mixedCount with
    | some c, some m =>
      some ⟨total, c, m, (List.range partitionCount).map (fun p => (total.getD p 0 : Int) - c.getD p 0 - m.getD p 0), certOnlyCount, mixedCount, staleCount⟩
    | _, _ => none

/-! ## The rows -/

/-- `binary.BigEndian.PutUint64` and shorter. -/
def be : Nat → Nat → Bytes
  | 0, _ => []
  | k + 1, n => UInt8.ofNat (n / 256 ^ k) :: be k (n % 256 ^ k)

/-- main.go:1482-1487 `makeLinearID`. -/
def makeLinearID (pre : Byte) (ordinal : Nat) : Bytes := pre :: (List.replicate 23 0 ++ be 8 (ordinal % 2 ^ 64))

/-- main.go:1472-1480 `makeDomainID`; `none`: a panic. -/
def makeDomainID (partition ordinal : Nat) : Option Bytes :=
  let id := makeLinearID (UInt8.ofNat (partition <<< 3)) (ordinal + 1)
  if Batch.partitionByIdMSB id (Batch.numBitsForPartitionCount partitionCount) = partition then some id else none

/-- The prefixes of names, main.go:59-61. -/
inductive Kind where
  | certOnly
  | mixed
  | stale
deriving DecidableEq, Repr

/-- main.go:1489-1491 `domainName`. Simplification: the text is replaced by its three parts, as bytes (only the prefix matters below). -/
def domainName (k : Kind) (partition i : Nat) : Bytes :=
  (match k with | .certOnly => 0x63 | .mixed => 0x6d | .stale => 0x73) :: be 8 (partition % 2 ^ 64) ++ be 8 (i % 2 ^ 64)

/-- Whether a name is that of a stale domain (main.go:59 and the queries of main.go:898-907). -/
def staleName (name : Bytes) : Bool := name.head? == some 0x73

/-- The files of a fixture, as the rows in them, the seeds and the expected payload rows (main.go:401-405). -/
structure Files where
  domains : List (Bytes × Bytes)
  certs : List Cert
  domainCerts : List (Bytes × Bytes)
  policies : List Cert
  domainPolicies : List (Bytes × Bytes)
  payloads : List Payload
  dirty : List (Bytes × Bool)
  certSeed : Nat
  policySeed : Nat
  ordinal : Nat
  expected : List Payload

/-- Before the loop, main.go:401-405. -/
def noFiles : Files := ⟨[], [], [], [], [], [], [], 1, 1, 0, []⟩

/-- main.go:1399-1410 `buildCertRows`: the rows, and the IDs of the two leaves. -/
def buildCertRows (start : Nat) : List Cert × List Bytes :=
  let root := makeLinearID 0x40 start
  let mid := makeLinearID 0x40 (start + 1)
  let leafA := makeLinearID 0x40 (start + 2)
  let leafB := makeLinearID 0x40 (start + 3)
  ([⟨root, [], 0, []⟩, ⟨mid, root, 0, []⟩, ⟨leafA, mid, 0, []⟩, ⟨leafB, root, 0, []⟩], [leafA, leafB])

/-- main.go:1412-1422 `buildPolicyRows`. -/
def buildPolicyRows (start : Nat) : List Cert :=
  let root := makeLinearID 0x80 start
  let mid := makeLinearID 0x80 (start + 1)
  let leaf := makeLinearID 0x80 (start + 2)
  [⟨root, [], 0, []⟩, ⟨mid, root, 0, []⟩, ⟨leaf, mid, 0, []⟩]

/-- main.go:1424-1427 `buildDomainPolicyRows`. -/
def buildDomainPolicyRows (d : Bytes) (leafSeed : Nat) : List (Bytes × Bytes) := [(d, makeLinearID 0x80 leafSeed)]

/-- main.go:1459-1470 `aggregateIDs`: the sorted IDs, one after the other (the function returns their hash and length). -/
def aggregateIDs (ids : List Bytes) : Bytes := (ids.mergeSort (fun a b => !bytesLt b a)).flatten

/-- main.go:1429-1444 `buildCertExpectation`. -/
def buildCertExpectation (d : Bytes) (start : Nat) : Payload :=
  ⟨d, some (aggregateIDs [makeLinearID 0x40 start, makeLinearID 0x40 (start + 1), makeLinearID 0x40 (start + 2), makeLinearID 0x40 (start + 3)]), none⟩

/-- main.go:1446-1457 `buildMixedExpectation`. -/
def buildMixedExpectation (d : Bytes) (certStart policyStart : Nat) : Payload :=
  { buildCertExpectation d certStart with
    policyIds := some (aggregateIDs [makeLinearID 0x80 policyStart, makeLinearID 0x80 (policyStart + 1), makeLinearID 0x80 (policyStart + 2)]) }

/-- main.go:1368-1397 `writeActiveDomain`. -/
def writeActiveDomain (f : Files) (d name : Bytes) : Files :=
  let rows := buildCertRows f.certSeed
  { f with
    domains := f.domains ++ [(d, name)]
    dirty := f.dirty ++ [(d, false)]
    certs := f.certs ++ rows.1
    domainCerts := f.domainCerts ++ rows.2.map (fun l => (d, l))
    certSeed := f.certSeed + 4 }

/-- main.go:409-419: a domain with certificates only. -/
def addCertOnly (f : Files) (d name : Bytes) : Files :=
  let f := writeActiveDomain f d name
  { f with expected := f.expected ++ [buildCertExpectation d (f.certSeed - 4)], ordinal := f.ordinal + 1 }

/-- main.go:422-443: a domain with certificates and policies. -/
def addMixed (f : Files) (d name : Bytes) : Files :=
  let f := writeActiveDomain f d name
  { f with
    expected := f.expected ++ [buildMixedExpectation d (f.certSeed - 4) f.policySeed]
    policies := f.policies ++ buildPolicyRows f.policySeed
    domainPolicies := f.domainPolicies ++ buildDomainPolicyRows d (f.policySeed + 2)
    policySeed := f.policySeed + 3
    ordinal := f.ordinal + 1 }

/-- main.go:360-363, 446-465: a stale domain, with an old payload but nothing linked to it. -/
def addStale (f : Files) (d name : Bytes) : Files :=
  { f with
    domains := f.domains ++ [(d, name)]
    dirty := f.dirty ++ [(d, false)]
    payloads := f.payloads ++ [⟨d, some (List.replicate 32 0x55), none⟩]
    ordinal := f.ordinal + 1 }

/-- One domain of the loops of main.go:407-466. -/
def addDomain (f : Files) (k : Kind) (partition i : Nat) : Option Files :=
  (makeDomainID partition f.ordinal).map (fun d =>
    match k with
    | .certOnly => addCertOnly f d (domainName k partition i)
    | .mixed => addMixed f d (domainName k partition i)
    | .stale => addStale f d (domainName k partition i))

/-- The body of one of the three inner loops: `count` domains of a kind. -/
def addMany (f : Files) (k : Kind) (partition count : Nat) : Option Files :=
  (List.range count).foldlM (fun f i => addDomain f k partition i) f

/-- main.go:407-466, all partitions. A negative number of stale domains means no round of the loop. -/
def build (p : Plan) : Option Files :=
  (List.range partitionCount).foldlM (fun f q => do
    let f ← addMany f .certOnly q (p.certOnly.getD q 0)
    let f ← addMany f .mixed q (p.mixed.getD q 0)
    addMany f .stale q (p.stale.getD q 0).toNat) noFiles

/-- main.go:707-808 `loadFixture`, into empty tables. The parent of a root is NULL in the DB, here the empty string. -/
def load (f : Files) : DB where
  certs := insertIgnore Cert.id [] f.certs
  domains := insertIgnore Prod.fst [] f.domains
  domainCerts := insertIgnore id [] f.domainCerts
  policies := insertIgnore Cert.id [] f.policies
  domainPolicies := insertIgnore id [] f.domainPolicies
  payloads := insertIgnore Payload.domain [] f.payloads
  dirty := insertIgnore Prod.fst [] f.dirty

/-- main.go:851-875 `verifyFixtureCounts`. -/
def verifyFixtureCounts (p : Plan) (dirtyDomains : Nat) (db : DB) : Bool :=
  db.dirty.length == dirtyDomains && db.domains.length == dirtyDomains && db.payloads.length == p.staleCount && db.certs.length == p.certOnlyCount * 4 + p.mixedCount * 4 &&
    db.domainCerts.length == p.certOnlyCount * 2 + p.mixedCount * 2 && db.policies.length == p.mixedCount * 3 && db.domainPolicies.length == p.mixedCount

end Fpki.Bench
