/-!
# Model of `JoinTwoPipelines`: `pkg/pipeline/join.go:80-252`

The joined pipeline is: the stages of the first pipeline, its sink, and the second pipeline, which the sink feeds through a channel without buffer (`sourceIncomingCh` of the source of the second pipeline).
Modelled are the goroutine of the sink (stage.go:387-513 with the functions that `joinStages` installs, join.go:223-250), the goroutine of the source of the second pipeline
(stage.go:387-513, source.go:81-100) and the channel between them, over several calls of `Resume`. What the stages before the sink deliver is a list; what the stages after the source do is an event (`srcSent`: they took a value,
`srcStop`: the source ends, with or without an error, because a stage after it, or its own function, says so).
`WithStallStages`, `WithAutoResumeAtStage` and `StopAndWait` are not used. Errors are numbers.
-/
namespace Fpki.Join
variable {α : Type}

/-- The goroutine of the sink. -/
inductive Sink (α : Type) where
  /-- not resumed -/
  | off
  /-- stage.go:418: at the select -/
  | idle
  /-- join.go:233-241: in its process function, which sends the value `k` more times and then calls the original function -/
  | inFunc (k : Nat) (v : α)
  /-- stage.go:352-377: has closed its output, waits until the next stages have ended -/
  | waiting (err : Option Nat)
  /-- stage.go:377-: it has reported this -/
  | finished (err : Option Nat)
deriving DecidableEq, Repr

/-- The goroutine of the source of the second pipeline. -/
inductive Src (α : Type) where
  | off
  /-- stage.go:418: at the select -/
  | select
  /-- source.go:85: waits for a value or for the closing of the channel -/
  | inFunc
  /-- stage.go:474: sends the value to the next stage -/
  | sending (v : α)
  /-- it and the stages after it have ended; the error is not yet read by the sink -/
  | ended (err : Option Nat)
deriving DecidableEq, Repr

/-- `depth`: how many times `joinStages` has been called: the process function of the sink, and its `onNoMoreData`, are wrapped that often. `closed`: the channel in the field is closed. `got`: what the second pipeline received in this run; `called`: what the original function of the sink was called with. -/
structure St (α : Type) where
  depth : Nat
  closed : Bool
  input : List α
  sink : Sink α
  src : Src α
  got : List α
  called : List α
  panic : Bool
deriving DecidableEq, Repr

/-- After `JoinTwoPipelines`, join.go:80-123; the channel of the source of the second pipeline is open, or the user has closed it. -/
def St.init (closed : Bool) : St α := ⟨0, closed, [], .off, .off, [], [], false⟩

/-- What the original process function of the sink returned. -/
inductive Ret where
  | ok
  | noMore
  | fail (e : Nat)
deriving DecidableEq, Repr

inductive Ev (α : Type) where
  | resume (input : List α)
  | take
  | takeEnd (err : Option Nat)
  | hand
  | call (r : Ret)
  | srcSelect
  | srcSent
  | srcStop (err : Option Nat)
  | srcClosed (err : Option Nat)
  | notice
  | wait
deriving DecidableEq, Repr

/-- util.ErrorsCoalesce (stage.go:372): here only whether there is an error matters -/
def coalesce : Option Nat → Option Nat → Option Nat
  | some e, _ => some e
  | none, r => r

/-- Closing the channel `depth` times, then the sink ends with `err`: the second `close` panics. join.go:237-239, 244-249. -/
def closeAll (s : St α) (err : Option Nat) : St α :=
  if s.depth = 0 then { s with sink := .waiting err }
  else if s.closed || decide (1 < s.depth) then { s with closed := true, panic := true }
  else { s with closed := true, sink := .waiting err }

/-- May `Resume` be called: before the first run, or after `Wait` has returned. -/
def resumable : Sink α → Bool
  | .off => true
  | .finished _ => true
  | _ => false

/-- One step. -/
def exec (s : St α) (e : Ev α) : Option (St α) :=
  if s.panic then none else
  match e with
  -- pipeline.go:127-135 with join.go:104-117: joinStages (join.go:188-252) closes the channel and installs `onResume`, which makes a new one and resumes the second pipeline
  | .resume input =>
    if !resumable s.sink then none
    else if s.closed then some { s with panic := true }
    else some ⟨s.depth + 1, false, input, .idle, .select, [], [], false⟩
  -- stage.go:429: a value from the stages before
  | .take =>
    match s.sink, s.input with
    | .idle, v :: rest => some { s with sink := .inFunc s.depth v, input := rest }
    | _, _ => none
  -- stage.go:445-448: the stages before are done; `onNoMoreData` (join.go:244-249), `err` from the original one
  | .takeEnd err =>
    match s.sink, s.input with
    | .idle, [] => some (closeAll s err)
    | _, _ => none
  -- join.go:234 with source.go:85
  | .hand =>
    match s.sink, s.src with
    | .inFunc (k + 1) v, .inFunc => if s.closed then some { s with panic := true } else some { s with sink := .inFunc k v, src := .sending v, got := s.got ++ [v] }
    | _, _ => none
  -- join.go:235-240
  | .call r =>
    match s.sink with
    | .inFunc 0 v =>
      match r with
      | .ok => some { s with sink := .idle, called := s.called ++ [v] }
      | .noMore => some (closeAll { s with called := s.called ++ [v] } none)
      | .fail e => some { s with sink := .waiting (some e), called := s.called ++ [v] }
    | _ => none
  -- source.go:174: the source gets a `None` from itself
  | .srcSelect => match s.src with
    | .select => some { s with src := .inFunc }
    | _ => none
  | .srcSent => match s.src with
    | .sending _ => some { s with src := .select }
    | _ => none
  -- stage.go:424, 483-499
  | .srcStop err => match s.src with
    | .select => some { s with src := .ended err }
    | .sending _ => some { s with src := .ended err }
    | _ => none
  -- source.go:99: NoMoreData; `err` from the stages after it
  | .srcClosed err => match s.src with
    | .inFunc => if s.closed then some { s with src := .ended err } else none
    | _ => none
  -- stage.go:424: the sink reads the error of the source at its select
  | .notice => match s.sink, s.src with
    | .idle, .ended (some e) => some { s with sink := .waiting (some e), src := .ended none }
    | _, _ => none
  -- stage.go:368-377: all next stages have ended
  | .wait => match s.sink, s.src with
    | .waiting err, .ended err' => some { s with sink := .finished (coalesce err err'), src := .ended none }
    | _, _ => none

def run (s : St α) : List (Ev α) → Option (St α)
  | [] => some s
  | e :: es => (exec s e).bind fun s' => run s' es

end Fpki.Join
