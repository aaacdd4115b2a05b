/-!
# Model of the end of a process with registered functions: `pkg/util/atexit.go`, `cmd/ingest/main.go:52-62, 303-350`

The main goroutine (`main` and `mainFunction`) and the goroutine that handles the signals (C81 ff.), which ends the process at the second termination signal. Both call the registered functions:
`mainFunction` when it returns, `main` again (through `util.Exit`) if there was an error, and the handler through `util.Exit`.

Simplifications: functions are numbers; they return, with or without an error, and do not panic; only the main goroutine registers functions; registering is one step.
-/
namespace Fpki.Exit

/-- Who calls a function. -/
inductive Who where
  | main
  | handler
deriving DecidableEq, Repr

/-- Where the main goroutine is. -/
inductive Main where
  /-- in `mainFunction` -/
  | working
  /-- main.go:62: the deferred `ShutdownFunction`; these remain; `failed`: `mainFunction` returns an error -/
  | deferred (todo : List Nat) (failed : Bool)
  /-- main.go:55, atexit.go:21: `ShutdownFunction` in `Exit(1)` -/
  | exiting (todo : List Nat)
deriving DecidableEq, Repr

/-- `fns`: atexit.go:30 `shutdownFuncs`; `handler`: what remains to be called by `Exit` in the handler, and its exit code; `snapshot`: the functions that were registered when the handler called `Exit`;
`log`: the calls so far, and whether they returned an error; `ended`: the exit code of the process. -/
structure St where
  fns : List Nat
  main : Main
  handler : Option (List Nat × Nat)
  snapshot : List Nat
  log : List (Who × Nat × Bool)
  ended : Option Nat
deriving DecidableEq, Repr

/-- The process starts. -/
def St.init : St := ⟨[], .working, none, [], [], none⟩

inductive Ev where
  /-- atexit.go:25-27 -/
  | register (f : Nat)
  /-- `mainFunction` returns, with or without an error -/
  | mainReturns (failed : Bool)
  /-- the main goroutine calls the next function, which returns an error or not: atexit.go:13-15 -/
  | mainCalls (err : Bool)
  /-- it has called all of them -/
  | mainDone
  /-- main.go:321: the second termination signal -/
  | handlerExit (code : Nat)
  | handlerCalls (err : Bool)
  | handlerDone
deriving DecidableEq, Repr

/-- One step; nothing happens once the process has ended (`os.Exit`, atexit.go:22, or the return of `main`). -/
def exec (s : St) (e : Ev) : Option St :=
  if s.ended.isSome then none
  else match e, s.main, s.handler with
    | .register f, .working, _ => some { s with fns := s.fns ++ [f] }
    | .mainReturns failed, .working, _ => some { s with main := .deferred s.fns failed }
    | .mainCalls err, .deferred (f :: todo) failed, _ => some { s with main := .deferred todo failed, log := s.log ++ [(.main, f, err)] }
    | .mainCalls err, .exiting (f :: todo), _ => some { s with main := .exiting todo, log := s.log ++ [(.main, f, err)] }
    | .mainDone, .deferred [] false, _ => some { s with ended := some 0 }
    | .mainDone, .deferred [] true, _ => some { s with main := .exiting s.fns }
    | .mainDone, .exiting [], _ => some { s with ended := some 1 }
    | .handlerExit code, _, none => some { s with handler := some (s.fns, code), snapshot := s.fns }
    | .handlerCalls err, _, some (f :: todo, code) => some { s with handler := some (todo, code), log := s.log ++ [(.handler, f, err)] }
    | .handlerDone, _, some ([], code) => some { s with ended := some code }
    | _, _, _ => none

/-- A sequence of steps. -/
def execs (s : St) : List Ev → Option St
  | [] => some s
  | e :: es => (exec s e).bind (execs · es)

/-- The functions called by one of the goroutines, in order. -/
def calls (s : St) (w : Who) : List Nat := (s.log.filter (fun x => x.1 = w)).map (fun x => x.2.1)

end Fpki.Exit
