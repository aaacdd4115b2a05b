import Verif.Model.MerkleLog
import Verif.Model.LogClient

/-!
# Model of tree heads in `pkg/policylog/client/logclient.go`

`GetCurrentLogRoot`, `UpdateTreeSize`, `GetConsistencyProof` and the tree heads that `FetchInclusions` delivers. The decoding of a signed log root (`types.LogRootV1.UnmarshalBinary` of
github.com/google/trillian, not in /repo) is a parameter `decode`; of a root, size and hash are kept. gRPC errors are `none`. A client without workers panics on `c.worker[0]` (not modelled here, see C128).
-/
namespace Fpki.LogHead

open Fpki.MerkleLog
open Fpki.LogClient (Reply)

/-- Go's conversion `int64(x)` of a `uint64` (logclient.go:120, 128, 129). -/
def toInt64 (n : Nat) : Int := if n < 2 ^ 63 then n else (n : Int) - 2 ^ 64

/-- logclient.go:29-43 `LogClient`: the fields that change. -/
structure Client where
  root : Option Root
  size : Int
deriving DecidableEq

/-- logclient.go:84-88: a new client. -/
def newClient : Client := ⟨none, 0⟩

/-- logclient.go:96-112 `GetCurrentLogRoot`: the answer of the log server is the only input. -/
def getCurrentLogRoot (decode : Bytes → Option Root) (answer : Option Bytes) : Option Root := answer.bind decode

/-- logclient.go:252-261 `updateLogRoot`; `false` is an error. -/
def updateLogRoot (decode : Bytes → Option Root) (c : Client) (answer : Option Bytes) : Client × Bool :=
  match getCurrentLogRoot decode answer with
  | none => (c, false)
  | some r => ({ c with root := some r }, true)

/-- logclient.go:115-122 `UpdateTreeSize` by a single caller. -/
def updateTreeSize (decode : Bytes → Option Root) (c : Client) (answer : Option Bytes) : Client × Bool :=
  match updateLogRoot decode c answer with
  | (c', false) => (c', false)
  | (c', true) => ({ c' with size := toInt64 ((c'.root.map Root.size).getD 0) }, true)

/-- Calls one after the other. -/
def updates (decode : Bytes → Option Root) (c : Client) (answers : List (Option Bytes)) : Client := answers.foldl (fun c a => (updateTreeSize decode c a).1) c

/-! ## Concurrent calls -/

/-- Where a call of `UpdateTreeSize` is: before logclient.go:253, after it with a root (before 257-259), before the read of `c.logRoot.TreeSize` (120), before the write of `c.currentTreeSize` (120), returned. -/
inductive Pc where
  | ask
  | got (r : Root)
  | read
  | write (n : Nat)
  | done
deriving DecidableEq

/-- The client and the calls. -/
structure Sys where
  client : Client
  calls : List Pc
deriving DecidableEq

/-- One step of call `i`; `answer` is used in `ask` only. An error (115-118) ends the call. -/
def step (decode : Bytes → Option Root) (s : Sys) (i : Nat) (answer : Option Bytes) : Sys :=
  match s.calls[i]? with
  | some .ask =>
    match getCurrentLogRoot decode answer with
    | none => { s with calls := s.calls.set i .done }
    | some r => { s with calls := s.calls.set i (.got r) }
  | some (.got r) => ⟨{ s.client with root := some r }, s.calls.set i .read⟩
  | some .read => { s with calls := s.calls.set i (.write ((s.client.root.map Root.size).getD 0)) }
  | some (.write n) => ⟨{ s.client with size := toInt64 n }, s.calls.set i .done⟩
  | _ => s

/-- A schedule: which call makes its next step, and the answer it gets if it asks. -/
def run (decode : Bytes → Option Root) (s : Sys) (sched : List (Nat × Option Bytes)) : Sys := sched.foldl (fun s p => step decode s p.1 p.2) s

/-! ## Inclusion proofs with tree heads -/

/-- concurrentfunc.go:55-59 `PoIAndSTH` -/
structure PoI where
  proofs : List (Option Proof)
  sth : Root

/-- What an honest log with these entries answers to `GetInclusionProofByHash` for a tree size (log_rpc_server.go of github.com/google/trillian, which is not part of /repo): the proofs are for the
size asked for, the tree head is the latest one. -/
def serve (H : Bytes → Bytes) (entries : List Bytes) (size : Int) (leaf : Bytes) : Reply Unit PoI :=
  if size ≤ 0 then .err ()
  else if (entries.length : Int) < size then .empty
  else
    let leaves := (entries.take size.toNat).map (hashLeaf H)
    match (List.range size.toNat).filter (fun i => leaves[i]? == some leaf) with
    | [] => .notFound ()
    | is => .proof (.ok ⟨is.map fun i : Nat => some ⟨(i : Int), auditPath H i leaves⟩, ⟨entries.length, mth H (entries.map (hashLeaf H))⟩⟩)

/-- concurrentfunc.go:178-184, 195-241: what is delivered for the leaf `d` by a client with tree size `size`, if the log has the entries `log i` at the `i`th query. -/
def fetch (H : Bytes → Bytes) (log : Nat → List Bytes) (size : Int) (d : Bytes) (fuel : Nat) : Option (Except Unit PoI) :=
  LogClient.fetchOne (fun i => serve H (log i) size (hashLeaf H d)) fuel 0 0

/-! ## A client that audits -/

/-- tests/integration/policylog_interaction/main.go:63-93, for every update: a new root from `GetCurrentLogRoot`, a consistency proof from `GetConsistencyProof` (logclient.go:125-140) and `VerifyRoot`;
`none` if it refuses. -/
def audit (H : Bytes → Bytes) : Root → List (Root × List Bytes) → Option Root
  | t, [] => some t
  | t, (n, c) :: l =>
    match verifyRoot H (some t) (some n) c with
    | none => none
    | some r => audit H r l

end Fpki.LogHead
