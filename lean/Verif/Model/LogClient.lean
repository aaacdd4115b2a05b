/-!
# Model of `pkg/policylog/client/{concurrentfunc,logclient}.go`

A leader (the caller) and its workers share two unbuffered channels. A leaf is of any type `δ`, an answer of a worker of any type `ρ`; the answers of the log server are arbitrary. Contexts
and gRPC are not modelled; a call to the log server returns after some time.
-/
namespace Fpki.LogClient

variable {δ ρ ε π : Type}

/-- A worker goroutine: concurrentfunc.go:62-93 and 166-243. `busy j`: calls the log server for job `j`. `ready j r`: blocked in `resultChan <- r`. -/
inductive Worker (ρ : Type) where
  | idle
  | busy (job : Nat)
  | ready (job : Nat) (r : ρ)
  | exited

/-- Where the leader is: in `send_receive_loop`, in the loop for the remaining results, returned, or stopped by a panic. -/
inductive Phase where
  | loop | drain | done | panicked
deriving DecidableEq

/-- The state; `answers` records, in order, what the log server said about which job (a ghost variable), `received` what the leader got. -/
structure Farm (ρ : Type) where
  size : Nat
  sent : Nat
  phase : Phase
  workers : List (Worker ρ)
  received : List (Nat × ρ)
  answers : List (Nat × ρ)

/-- concurrentfunc.go:96-117, 247-262: the start. Evaluating `data[jobCounter]` panics if there is no leaf. -/
def start (size nworkers : Nat) : Farm ρ := ⟨size, 0, if size = 0 then .panicked else .loop, List.replicate nworkers .idle, [], []⟩

/-- What can happen; the number is the worker. -/
inductive Ev (ρ : Type) where
  | take (w : Nat)
  | answer (w : Nat) (r : ρ)
  | deliver (w : Nat)
  | exit (w : Nat)

/-- One step; `none` if the event cannot happen.
`take`: concurrentfunc.go:124-130 with 66-69, 268-273: the worker receives the next leaf; after the last one the channel is closed and the first loop ends. (Then `resultCounter ≠ dataSize`,
because the result of the last job is missing.)
`answer`: 78-88, 199-241. `deliver`: 91 with 134-141, 147-160: the leader appends the result and returns after the last. `exit`: 70-72: the channel is closed. -/
def Farm.exec (s : Farm ρ) : Ev ρ → Option (Farm ρ)
  | .take w =>
    match s.phase, s.workers[w]? with
    | .loop, some .idle => some { s with sent := s.sent + 1, phase := if s.sent + 1 = s.size then .drain else .loop, workers := s.workers.set w (.busy s.sent) }
    | _, _ => none
  | .answer w r =>
    match s.workers[w]? with
    | some (.busy j) => some { s with workers := s.workers.set w (.ready j r), answers := s.answers ++ [(j, r)] }
    | _ => none
  | .deliver w =>
    match s.phase, s.workers[w]? with
    | .loop, some (.ready j r) => some { s with workers := s.workers.set w .idle, received := s.received ++ [(j, r)] }
    | .drain, some (.ready j r) =>
      some { s with workers := s.workers.set w .idle, received := s.received ++ [(j, r)], phase := if s.received.length + 1 = s.size then .done else .drain }
    | _, _ => none
  | .exit w =>
    match s.phase, s.workers[w]? with
    | .drain, some .idle => some { s with workers := s.workers.set w .exited }
    | .done, some .idle => some { s with workers := s.workers.set w .exited }
    | _, _ => none

/-! ## AddLeaves -/

/-- concurrentfunc.go:41-44 `addLeavesResult` -/
structure AddResult (δ ε : Type) where
  failedLeaves : List δ
  errs : List ε

/-- concurrentfunc.go:98-101: `FailedLeaves: [][]byte{{}}` holds one empty leaf. -/
def AddResult.init (empty : δ) : AddResult δ ε := ⟨[empty], []⟩

/-- concurrentfunc.go:135-139, 149-153: one result; `data j` is the leaf. -/
def AddResult.add (data : Nat → δ) (res : AddResult δ ε) (r : Nat × Option ε) : AddResult δ ε :=
  match r.2 with
  | none => res
  | some e => ⟨res.failedLeaves ++ [data r.1], res.errs ++ [e]⟩

/-- concurrentfunc.go:96-163 `AddLeaves`: its result, once the results of the workers came in. -/
def addLeaves (empty : δ) (data : Nat → δ) (received : List (Nat × Option ε)) : AddResult δ ε := received.foldl (AddResult.add data) (AddResult.init empty)

/-! ## FetchInclusions -/

/-- What the log server returns for one query: NotFound, another error, no proofs, or proofs; `none` if the tree head cannot be decoded. -/
inductive Reply (ε π : Type) where
  | notFound (e : ε)
  | err (e : ε)
  | empty
  | proof (p : Except ε π)

/-- concurrentfunc.go:195-241: the loop of `worker_fetchInclusion` for one leaf; `replies i` is the answer to the `i`-th query. `none` if it does not end within `fuel` queries. -/
def fetchOne (replies : Nat → Reply ε π) : Nat → Nat → Nat → Option (Except ε π)
  | 0, _, _ => none
  | fuel + 1, i, tries =>
    match replies i with
    | .notFound e => if tries > 10 then some (.error e) else fetchOne replies fuel (i + 1) (tries + 1)
    | .err e => some (.error e)
    | .empty => fetchOne replies fuel (i + 1) tries
    | .proof p => some p

/-- concurrentfunc.go:55-60 `fetchInclusionResult`; the map is a function. -/
structure FetchResult (ν δ ε π : Type) where
  pois : ν → Option π
  failedLeaves : List δ
  failedNames : List ν
  errs : List ε

/-- concurrentfunc.go:275-283, 291-299: one result; `name` is the base64 of the leaf hash. -/
def FetchResult.add {ν : Type} [DecidableEq ν] (data : Nat → δ) (name : δ → ν) (res : FetchResult ν δ ε π) (r : Nat × Except ε π) : FetchResult ν δ ε π :=
  match r.2 with
  | .error e => ⟨res.pois, res.failedLeaves ++ [data r.1], res.failedNames ++ [name (data r.1)], res.errs ++ [e]⟩
  | .ok p => { res with pois := fun n => if n = name (data r.1) then some p else res.pois n }

/-- concurrentfunc.go:247-307 `FetchInclusions` -/
def fetchInclusions {ν : Type} [DecidableEq ν] (data : Nat → δ) (name : δ → ν) (received : List (Nat × Except ε π)) : FetchResult ν δ ε π :=
  received.foldl (FetchResult.add data name) ⟨fun _ => none, [], [], []⟩

/-! ## QueueRPCs -/

/-- logclient.go:210-242 `readRPCFromFileToBytes`: `files` are the contents in the folder in the order of their names, `none` if one cannot be decoded. Result: the data (`none` is an error) and the
files left in the folder. Errors of `os.Remove` are ignored by the code and not modelled. -/
def readRPCs : List (Option δ) → Option (List δ) × List (Option δ)
  | [] => (some [], [])
  | none :: fs => (none, none :: fs)
  | some d :: fs =>
    let r := readRPCs fs
    (r.1.map (d :: ·), r.2)

/-- logclient.go:179-189: waiting until the tree has exactly the expected size; `sizes i` is the answer to the `i`-th query (`none`: error). Result: `some true` if the wait ended, `some false` for an
error, `none` if it takes more than `fuel` queries. -/
def waitTree (sizes : Nat → Option Nat) (prev added : Nat) : Nat → Nat → Option Bool
  | 0, _ => none
  | fuel + 1, i =>
    match sizes i with
    | none => some false
    | some n => if n = prev + added then some true else waitTree sizes prev added fuel (i + 1)

end Fpki.LogClient
