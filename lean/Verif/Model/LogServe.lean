/-!
# Model of the running and stopping of the policy log: `pkg/policylog/server/util/serverutil.go:80-148, 191-209`

The goroutine of `Run` (with `srvRun`, whose goroutine it waits for), the goroutine that calls `Serve`, the requests, and the cancellation of the context (by a signal: logserver.go:72-76,
logsigner.go:70-72). Both the log server and the log signer use it.

Assumptions on the gRPC library (not part of the repository): `GracefulStop` lets no further requests in and returns when those in progress are answered; `Serve` returns nil after a `GracefulStop` that
has finished, returns an error at once if the server has been stopped before (`ErrServerStopped`), and returns an error if the listener fails; in the last case open connections stay usable.
Simplifications: errors of `RegisterServerFn` and `net.Listen`, which end `Run` before anything starts, and the garbage collection of trees are left out; the pause of 5 seconds is arbitrary.
-/
namespace Fpki.LogServe

/-- The server of the gRPC library (serverutil.go:87, 122, 133). -/
inductive Srv where
  | created
  | serving
  | stopped
deriving DecidableEq, Repr

/-- serverutil.go:194-198: the goroutine that runs `Serve`. -/
inductive Run where
  | notStarted
  | serving
  | returned (err : Bool)
deriving DecidableEq, Repr

/-- The goroutine of serverutil.go:80-148. -/
inductive Main where
  /-- line 200 -/
  | select
  /-- line 202: in `GracefulStop` -/
  | stopping
  /-- line 204 -/
  | waiting
  /-- lines 142-147 -/
  | leaving (err : Bool)
  /-- line 93: the database is closed -/
  | dbClosed (err : Bool)
  /-- line 91: in the deferred `GracefulStop` -/
  | lastStop (err : Bool)
  | finished (err : Bool)
deriving DecidableEq, Repr

/-- State of serverutil.go:80-148, 191-209. `inflight`: requests in progress. -/
structure St where
  cancelled : Bool
  srv : Srv
  inflight : Nat
  run : Run
  main : Main
deriving DecidableEq, Repr

/-- The start of `Run`, lines 80-104. -/
def St.init : St := ⟨false, .created, 0, .notStarted, .select⟩

/-- Steps of the goroutines, of the clients and of the library: serverutil.go:80-148, 191-209. -/
inductive Ev where
  /-- a signal -/
  | cancel
  /-- line 197, 122: `Serve` is called -/
  | serve
  /-- a request arrives -/
  | request
  /-- a request is answered -/
  | reply
  /-- the listener fails -/
  | serveFails
  /-- line 201-202 -/
  | shutdown
  /-- `GracefulStop` returns -/
  | drained
  /-- `Serve` returns after it -/
  | serveReturns
  /-- lines 204, 205: the channel `exit` is closed -/
  | gotExit
  /-- line 93 -/
  | closeDb
  /-- line 91 -/
  | stopAgain
  | finish
deriving DecidableEq, Repr

/-- One step: serverutil.go:80-148, 191-209. -/
def exec (s : St) : Ev → Option St
  | .cancel => some { s with cancelled := true }
  | .serve =>
    match s.run, s.srv with
    | .notStarted, .stopped => some { s with run := .returned true }
    | .notStarted, _ => some { s with run := .serving, srv := .serving }
    | _, _ => none
  | .request => if s.srv = .serving then some { s with inflight := s.inflight + 1 } else none
  | .reply => if 0 < s.inflight then some { s with inflight := s.inflight - 1 } else none
  | .serveFails => if s.run = .serving ∧ s.srv = .serving then some { s with run := .returned true } else none
  | .shutdown => if s.main = .select ∧ s.cancelled then some { s with srv := .stopped, main := .stopping } else none
  | .drained => if s.main = .stopping ∧ s.inflight = 0 then some { s with main := .waiting } else none
  | .serveReturns => if s.run = .serving ∧ s.srv = .stopped ∧ s.main = .waiting then some { s with run := .returned false } else none
  | .gotExit =>
    match s.main, s.run with
    | .select, .returned e => some { s with main := .leaving e }
    | .waiting, .returned e => some { s with main := .leaving e }
    | _, _ => none
  | .closeDb =>
    match s.main with
    | .leaving e => some { s with main := .dbClosed e }
    | _ => none
  | .stopAgain =>
    match s.main with
    | .dbClosed e => some { s with main := .lastStop e, srv := .stopped }
    | _ => none
  | .finish =>
    match s.main with
    | .lastStop e => if s.inflight = 0 then some { s with main := .finished e } else none
    | _ => none

/-- A sequence of steps (serverutil.go:80-148, 191-209). -/
def execs (s : St) : List Ev → Option St
  | [] => some s
  | e :: es => (exec s e).bind (execs · es)

end Fpki.LogServe
