/-!
# Model of the signal handling of ingest
`cmd/ingest/main.go` `startIngestSignalHandler`, `signalExitCode`, the end of `mainFunction` and `main`; `cmd/ingest/run.go` `ingestFilesInBatches`: where the context
is looked at.

Two goroutines (handler and main) and the operating system that delivers signals. Inside a batch (`RunBatch`, coalescing, SMT, journal: C30) only success or the
error is modelled: an error that wraps `context.Canceled` can only occur once the context is cancelled. Signals that arrive before `signal.Notify` are not
modelled (the default action of the operating system ends the process).
-/
namespace Fpki.Interrupt

/-- main.go:139: the signals that are caught. -/
inductive Sig where
  | int
  | term
  | usr1
deriving Repr, DecidableEq

/-- main.go:311 -/
def Sig.isTermination : Sig → Bool
  | .int => true
  | .term => true
  | .usr1 => false

/-- main.go:345-350 `signalExitCode` -/
def exitCode : Sig → Nat
  | .term => 128 + 15
  | _ => 128 + 2

/-- An error of a batch: does it wrap `context.Canceled`? -/
inductive Err where
  | canceled
  | other
deriving Repr, DecidableEq

inductive Main where
  /-- run.go:217-220: in front of the look at the context for batch `i` -/
  | before (i : Nat)
  /-- run.go:221-230: in batch `i` -/
  | running (i : Nat)
  /-- `runIngest` has returned -/
  | returned (r : Option Err)
deriving Repr, DecidableEq

/-- main.go:205-208, 52-56: what the program prints as its error. -/
inductive Msg where
  | interrupted
  | error (e : Err)
deriving Repr, DecidableEq

structure St where
  /-- number of batches -/
  n : Nat
  main : Main
  /-- main.go:138: the channel `signals`, of capacity 1 -/
  chan : Option Sig
  /-- main.go:309-340: the signal whose diagnostics are being written -/
  busy : Option Sig
  /-- main.go:306 `terminationRequested` -/
  requested : Bool
  /-- the context is cancelled and `interrupted` is set (main.go:336-339) -/
  cancelled : Bool
  /-- the process has ended with this code -/
  exited : Option Nat
  msg : Option Msg
  /-- observations: signals delivered into the channel, and those dropped because it was full; batches started and completed -/
  delivered : List Sig
  dropped : List Sig
  started : Nat
  completed : Nat
deriving Repr, DecidableEq

def St.init (n : Nat) : St := ⟨n, .before 0, none, none, false, false, none, none, [], [], 0, 0⟩

inductive Ev where
  /-- the operating system delivers a signal (`signal.Notify` never blocks) -/
  | signal (s : Sig)
  /-- the handler receives -/
  | receive
  /-- the diagnostics are written (or have failed) -/
  | finish
  /-- main looks at the context -/
  | check
  /-- the batch is completed, or fails -/
  | done
  | fail (e : Err)
  /-- main ends the process -/
  | exit
deriving Repr, DecidableEq

/-- main.go:205-208 -/
def message (interrupted : Bool) (e : Err) : Msg := if interrupted && e == .canceled then .interrupted else .error e

def exec (s : St) : Ev → Option St
  | .signal g =>
    if s.exited.isSome then none
    else match s.chan with
      | none => some { s with chan := some g, delivered := s.delivered ++ [g] }
      | some _ => some { s with dropped := s.dropped ++ [g] }
  | .receive =>
    match s.exited, s.busy, s.chan with
    | none, none, some g =>
      if g.isTermination && s.requested then some { s with chan := none, exited := some (exitCode g) }
      else some { s with chan := none, busy := some g, requested := s.requested || g.isTermination }
    | _, _, _ => none
  | .finish =>
    match s.exited, s.busy with
    | none, some g => some { s with busy := none, cancelled := s.cancelled || g.isTermination }
    | _, _ => none
  | .check =>
    match s.exited, s.main with
    | none, .before i =>
      if s.n ≤ i then (if i = 0 && s.cancelled then some { s with main := .returned (some .canceled) } else some { s with main := .returned none })
      else if s.cancelled then some { s with main := .returned (some .canceled) }
      else some { s with main := .running i, started := s.started + 1 }
    | _, _ => none
  | .done =>
    match s.exited, s.main with
    | none, .running i => some { s with main := .before (i + 1), completed := s.completed + 1 }
    | _, _ => none
  | .fail e =>
    match s.exited, s.main with
    | none, .running _ => if e = .canceled && !s.cancelled then none else some { s with main := .returned (some e) }
    | _, _ => none
  | .exit =>
    match s.exited, s.main with
    | none, .returned none => some { s with exited := some 0 }
    | none, .returned (some e) => some { s with exited := some 1, msg := some (message s.cancelled e) }
    | _, _ => none

def run (s : St) : List Ev → Option St
  | [] => some s
  | e :: es => (exec s e).bind fun s' => run s' es

end Fpki.Interrupt
