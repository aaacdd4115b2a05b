/-!
# Model of the update loop of `pkg/mapserver/mapserver.go`

The callers of `PruneAndUpdate(IfPossible)` and the goroutine that `NewMapServer` starts; both channels are unbuffered, so a communication is one step of both sides. The results of `prune`/`update` and of `ReloadRootAndSignTreeHead` are arbitrary: `none` is a nil error, `some e` an error (no meaning of `e` is used).
-/
namespace Fpki.UpdateLoop

abbrev Err := Nat

/-- mapserver.go:119-141: where the goroutine is. -/
inductive Server where
  /-- at the `select` -/
  | idle
  /-- in `s.prune`/`s.update` for the request of that caller -/
  | working (c : Nat)
  /-- about to send the result (305, 309) -/
  | answering (c : Nat) (r : Option Err)
  /-- in `ReloadRootAndSignTreeHead` (129) -/
  | reloading (c : Nat)
  /-- about to send the error of the reload (131) -/
  | reporting (e : Err)
  /-- it has closed the channel and returned (133-136) -/
  | exited
deriving DecidableEq, Repr

/-- mapserver.go:209-229: where a caller is. -/
inductive Caller where
  /-- in no call -/
  | out
  /-- about to send its context (224) -/
  | sending
  /-- waiting for the answer (214, 227) -/
  | waiting
  /-- it has panicked: send on a closed channel -/
  | panicked
deriving DecidableEq, Repr

structure State where
  server : Server
  callers : Nat → Caller

/-- mapserver.go:96-117: the server starts. -/
def init : State := ⟨.idle, fun _ => .out⟩

/-- What happens, as seen from outside: the update for caller `c` ended with `r`; the call of `c` returned `r`; the responder was reloaded; `IfPossible` of `c` returned false. -/
inductive Obs where
  | worked (c : Nat) (r : Option Err)
  | returned (c : Nat) (r : Option Err)
  | reloaded
  | refused (c : Nat)
deriving DecidableEq, Repr

inductive Ev where
  /-- `PruneAndUpdate` is called -/
  | call (c : Nat)
  /-- `PruneAndUpdateIfPossible` is called -/
  | tryCall (c : Nat)
  /-- the server receives the context of `c` -/
  | take (c : Nat)
  /-- `prune` and `update` end with this result -/
  | work (r : Option Err)
  /-- caller `d` receives what the server sends -/
  | answer (d : Nat)
  /-- `ReloadRootAndSignTreeHead` ends with this result -/
  | reload (r : Option Err)
  /-- the context of `NewMapServer` is cancelled -/
  | cancel
  /-- caller `c`, about to send, sees the closed channel -/
  | closed (c : Nat)
deriving DecidableEq, Repr

/-- Caller `c` goes on at `k`. -/
def State.setCaller (s : State) (c : Nat) (k : Caller) : State := { s with callers := fun d => if d = c then k else s.callers d }

/-- mapserver.go:119-141, 205-229, 302-311: one step, with what it shows; `none` if it is not possible. -/
def State.exec (s : State) : Ev → Option (State × List Obs)
  | .call c => if s.callers c = .out then some (s.setCaller c .sending, []) else none
  | .tryCall c =>
    if s.callers c = .out then
      (match s.server with
        | .idle => some ({ s.setCaller c .waiting with server := .working c }, [])
        | .exited => some (s.setCaller c .panicked, [])
        | _ => some (s, [.refused c]))
    else none
  | .take c => if s.server = .idle ∧ s.callers c = .sending then some ({ s.setCaller c .waiting with server := .working c }, []) else none
  | .work r =>
    match s.server with
    | .working c => some ({ s with server := .answering c r }, [.worked c r])
    | _ => none
  | .answer d =>
    if s.callers d = .waiting then
      (match s.server with
        | .answering c r => some ({ s.setCaller d .out with server := .reloading c }, [.returned d r])
        | .reporting e => some ({ s.setCaller d .out with server := .idle }, [.returned d (some e)])
        | _ => none)
    else none
  | .reload r =>
    match s.server with
    | .reloading _ =>
      (match r with
        | none => some ({ s with server := .idle }, [.reloaded])
        | some e => some ({ s with server := .reporting e }, []))
    | _ => none
  | .cancel => if s.server = .idle then some ({ s with server := .exited }, []) else none
  | .closed c => if s.server = .exited ∧ s.callers c = .sending then some (s.setCaller c .panicked, []) else none

end Fpki.UpdateLoop
