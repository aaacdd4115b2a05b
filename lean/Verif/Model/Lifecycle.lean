/-!
# Model of starting and stopping the map server
`pkg/mapserver/mapserver.go` `listen`, `Shutdown`; `pkg/util/signal_handler.go` `ContextWithCancelOnSignal`; `cmd/mapserver/main.go` `run`, `runWithConfig`.

Calls of `listen` are numbered. HTTP requests, and the time that `http.Server.Shutdown` waits for them, are not modelled.
-/
namespace Fpki.Lifecycle

/-- mapserver.go:158-200: one call of `listen`. -/
inductive Listen where
  /-- not called yet -/
  | out
  /-- in `ListenAndServe` (184, 186) -/
  | serving
  /-- `ListenAndServe` has returned an error of its own, e.g. because the port is in use -/
  | failed
  /-- it has returned `ErrServerClosed` -/
  | closed
  /-- `listen` has returned: nil, or an error -/
  | returned (ok : Bool)
deriving DecidableEq, Repr

/-- mapserver.go:178-181: the goroutine of a call of `listen` that waits for the order to stop. -/
inductive Stopper where
  | out
  | waiting
  /-- it has received from `apiStopServerChan`; it calls `server.Shutdown` -/
  | stopping
  | done
deriving DecidableEq, Repr

structure State where
  /-- `apiStopServerChan` (117), a channel of capacity 1 -/
  token : Bool
  listens : Nat → Listen
  stoppers : Nat → Stopper
  /-- calls of `Shutdown` that wait for room in the channel -/
  blocked : Nat
  /-- the context made by `ContextWithCancelOnSignal` is cancelled -/
  cancelled : Bool
  panicked : Bool

def set (f : Nat → α) (i : Nat) (a : α) : Nat → α := fun j => if j = i then a else f j

/-- mapserver.go:117 -/
def init : State := ⟨false, fun _ => .out, fun _ => .out, 0, false, false⟩

inductive Ev where
  /-- `Listen`/`ListenWithoutTLS` is called for the time number `i` -/
  | listen (i : Nat)
  /-- `ListenAndServe` fails -/
  | fail (i : Nat)
  /-- the goroutine of call `i` receives the order -/
  | take (i : Nat)
  /-- the goroutine of call `i` has called `server.Shutdown` -/
  | stop (i : Nat)
  /-- call `i` of `listen` returns -/
  | ret (i : Nat)
  /-- `Shutdown` is called -/
  | shutdown
  /-- a blocked call of `Shutdown` goes on -/
  | unblock
  /-- SIGTERM or SIGINT arrives -/
  | signal
  /-- the time to exit after the signal is over -/
  | timeout
deriving DecidableEq, Repr

/-- One step; `none` if it cannot happen. After a panic nothing happens. -/
def State.exec (s : State) (e : Ev) : Option State :=
  if s.panicked then none else
  match e with
  -- mapserver.go:158-189
  | .listen i => if s.listens i = .out then some { s with listens := set s.listens i .serving, stoppers := set s.stoppers i .waiting } else none
  | .fail i => if s.listens i = .serving then some { s with listens := set s.listens i .failed } else none
  -- mapserver.go:179
  | .take i => if s.stoppers i = .waiting ∧ s.token then some { s with token := false, stoppers := set s.stoppers i .stopping } else none
  -- mapserver.go:180: `ListenAndServe` returns `ErrServerClosed`, unless it has failed
  | .stop i =>
    if s.stoppers i = .stopping then
      some { s with stoppers := set s.stoppers i .done, listens := if s.listens i = .serving then set s.listens i .closed else s.listens }
    else none
  -- mapserver.go:190-199
  | .ret i =>
    match s.listens i with
    | .closed => some { s with listens := set s.listens i (.returned true) }
    | .failed => some { s with listens := set s.listens i (.returned false) }
    | _ => none
  -- mapserver.go:202-204
  | .shutdown => if s.token then some { s with blocked := s.blocked + 1 } else some { s with token := true }
  | .unblock => if s.token = false ∧ 0 < s.blocked then some { s with token := true, blocked := s.blocked - 1 } else none
  -- signal_handler.go:48-57
  | .signal => some { s with cancelled := true }
  -- signal_handler.go:61-73
  | .timeout => if s.cancelled then some { s with panicked := true } else none

/-- The states after these events. -/
def State.run (s : State) : List Ev → Option State
  | [] => some s
  | e :: es => (s.exec e).bind fun s' => s'.run es

/-- cmd/mapserver/main.go:173-225 `runWithConfig`: what can happen in the program: it calls `ListenWithoutTLS` once and never `Shutdown`. -/
def Ev.ofProgram : Ev → Bool
  | .listen i => i == 0
  | .shutdown | .unblock => false
  | _ => true

end Fpki.Lifecycle
