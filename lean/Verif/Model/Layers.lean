import Verif.Model.Pipe
/-!
# Model of a pipeline in layers: `LinkStagesDistribute` and `LinkStagesCrissCross`
`pkg/pipeline/stage.go:163-283`, as used by the part of ingest that reads files, `cmd/ingest/processor.go:172-271`.

Layer 0 is the source. All stages of a layer send on one channel, and all stages of the next layer read from it (stage.go:208-214); it is closed when all stages of the layer have asked for
that (stage.go:226-240; the counter is C38). Errors go back through goroutines: one per reading stage takes its error (stage.go:270-277), one per channel takes these errors one by one and
gives each to all sending stages, all at the same time, and waits until all have it (stage.go:249-268). The stages of the last layer are sinks.
Channels have no buffer: a send and its receive are one step. All goroutines interleave in any way. The stages themselves, and what is simplified about them, are as in `Verif.Model.Pipe`.
In ingest the last layer are the `toCerts` stages. What comes after them (the link to the DB part, C76) is part of their function here: it may fail, but comes to an end.
-/
namespace Fpki.Layers
open Fpki.Stage (Mode)
open Fpki.Pipe (Outcome Call Fn Phase upd afterCall afterEnd afterSent report allowed dropAt recv)

variable {α σ : Type}

/-- `n` stages; stage `i` is in layer `layer i`. -/
structure Net (α σ : Type) where
  n : Nat
  layer : Nat → Nat
  mode : Nat → Mode
  fn : Nat → Fn α σ

/-- The stages of a layer. -/
def Net.members (N : Net α σ) (l : Nat) : List Nat := (List.range N.n).filter fun i => N.layer i == l

/-- `fwd j`: the error held by the goroutine that reads the error channel of stage `j` (stage.go:270-277). `relay l`: the error that is being given to the stages of layer `l`, and the stages
that do not have it yet (stage.go:249-263). `result`: what `Wait` has returned.
Observations: `got j`: what stage `j` has received; `fails i`: the errors that the functions of stage `i` have returned; `heard i`: what stage `i` has received from the error channel of the next
layer ([] is nil); `log l`: the errors that were given to layer `l`. -/
structure St (α σ : Type) where
  phase : Nat → Phase α
  st : Nat → σ
  fwd : Nat → Option (List Nat)
  relay : Nat → Option (List Nat × List Nat)
  script : List (Call α)
  result : Option (List Nat)
  got : Nat → List α
  fails : Nat → List Nat
  heard : Nat → List (List Nat)
  log : Nat → List (List Nat)

/-- pipeline.go:132-140 `Resume` -/
def St.init (s0 : Nat → σ) (script : List (Call α)) : St α σ :=
  ⟨fun _ => .reading, s0, fun _ => none, fun _ => none, script, none, fun _ => [], fun _ => [], fun _ => [], fun _ => []⟩

/-- stage.go:235-238: the channel that stage `j` reads is closed when all stages of the layer before have asked for it. -/
def inClosed (N : Net α σ) (s : St α σ) (j : Nat) : Bool := (N.members (N.layer j - 1)).all fun i => (s.phase i).outClosed

/-- The error channel that stage `i` reads is closed: stage.go:264-267, 279-284; for a sink: sink.go:50-58 -/
def nilReady (N : Net α σ) (s : St α σ) (i : Nat) : Bool :=
  (N.members (N.layer i + 1) != [] || (s.phase i).isWaiting) && (s.relay (N.layer i)).isNone && (N.members (N.layer i + 1)).all fun j => (s.phase j).isFinished && (s.fwd j).isNone

/-- stage.go:256-263: the error was given to stage `i` too. -/
def given (r : List Nat) (e : List Nat) (i : Nat) : Option (List Nat × List Nat) := if r.erase i = [] then none else some (e, r.erase i)

inductive Ev where
  /-- the source gets `None{}`: source.go:168 -/
  | poll
  /-- the value at position `p` of what stage `i` is sending is taken by stage `j` of the next layer -/
  | give (i j p : Nat)
  /-- stage `j` sees the end of its input -/
  | closed (j : Nat)
  /-- the function returns -/
  | call (i : Nat)
  /-- all outputs are sent or given up -/
  | sent (i : Nat)
  /-- the stage asks to close its channel -/
  | close (i : Nat)
  /-- the goroutine takes the error of stage `j`: stage.go:274 -/
  | report (j : Nat)
  /-- the error goes to the goroutine of the channel: stage.go:275, 250 -/
  | relayIn (j : Nat)
  /-- the error goes to stage `i`: stage.go:259 -/
  | errTo (i p : Nat)
  /-- stage `i` receives nil, its error channel is closed -/
  | errNil (i p : Nat)
  /-- `Wait` returns -/
  | wait
deriving DecidableEq, Repr

/-- One step: `Resume` and all its goroutines, stage.go:318-333, 350-513, linked by stage.go:185-284 -/
def exec (N : Net α σ) (s : St α σ) : Ev → Option (St α σ)
  | .poll =>
    match s.phase 0 with
    | .reading =>
      match s.script with
      | [] => some { s with phase := upd s.phase 0 (.processing none) }
      | c :: cs => some { s with phase := upd s.phase 0 (.producing c), script := cs }
    | _ => none
  | .give i j p =>
    match s.phase i, s.phase j with
    | .sending pend rest brk err found, .reading =>
      match pend[p]? with
      | some (k, v) =>
        if i < N.n && j < N.n && N.layer j == N.layer i + 1 && k == 0 && allowed (N.mode i) p then
          some { s with phase := upd (upd s.phase i (.sending (pend.eraseIdx p) rest brk err found)) j (.processing (some v)), got := upd s.got j (s.got j ++ [v]) }
        else none
      | none => none
    | _, _ => none
  | .closed j =>
    match s.phase j with
    | .reading => if 0 < j && j < N.n && inClosed N s j then some { s with phase := upd s.phase j (.processing none) } else none
    | _ => none
  | .call i =>
    if i < N.n then
      match s.phase i with
      | .processing (some v) =>
        let r := (N.fn i).process (s.st i) v
        some { s with phase := upd s.phase i (afterCall r.2), st := upd s.st i r.1, fails := upd s.fails i (s.fails i ++ r.2.failure) }
      | .processing none =>
        if i = 0 then some { s with phase := upd s.phase 0 (.sending [] [] true false []) }
        else
          let r := (N.fn i).finish (s.st i)
          some { s with phase := upd s.phase i (afterEnd r.2), st := upd s.st i r.1, fails := upd s.fails i (s.fails i ++ r.2.failure) }
      | .producing c => some { s with phase := upd s.phase i (afterCall c), fails := upd s.fails i (s.fails i ++ c.failure) }
      | _ => none
    else none
  | .sent i =>
    match s.phase i with
    | .sending [] rest brk err found => if i < N.n then some { s with phase := upd s.phase i (afterSent rest brk err found) } else none
    | _ => none
  | .close i =>
    match s.phase i with
    | .breaking f => if i < N.n then some { s with phase := upd s.phase i (.waiting f) } else none
    | _ => none
  | .report j =>
    match s.phase j, s.fwd j with
    | .reporting e, none => if 0 < j && j < N.n then some { s with phase := upd s.phase j .finished, fwd := upd s.fwd j (some e) } else none
    | _, _ => none
  | .relayIn j =>
    match s.fwd j, s.relay (N.layer j - 1) with
    | some e, none =>
      if 0 < j && j < N.n then
        some { s with fwd := upd s.fwd j none, relay := upd s.relay (N.layer j - 1) (some (e, N.members (N.layer j - 1))), log := upd s.log (N.layer j - 1) (s.log (N.layer j - 1) ++ [e]) }
      else none
    | _, _ => none
  | .errTo i p =>
    match s.relay (N.layer i) with
    | some (e, r) =>
      if i < N.n ∧ i ∈ r then
        match recv (N.mode i) (s.phase i) e p with
        | some ph => some { s with phase := upd s.phase i ph, relay := upd s.relay (N.layer i) (given r e i), heard := upd s.heard i (s.heard i ++ [e]) }
        | none => none
      else none
    | none => none
  | .errNil i p =>
    if i < N.n && nilReady N s i then
      match recv (N.mode i) (s.phase i) [] p with
      | some ph => some { s with phase := upd s.phase i ph, heard := upd s.heard i (s.heard i ++ [[]]) }
      | none => none
    else none
  | .wait =>
    match s.result, s.phase 0 with
    | none, .reporting e => some { s with phase := upd s.phase 0 .finished, result := some e }
    | none, .finished => some { s with result := some [] }
    | _, _ => none

def run (N : Net α σ) (s : St α σ) : List Ev → Option (St α σ)
  | [] => some s
  | e :: es => (exec N s e).bind fun s' => run N s' es

/-- cmd/ingest/processor.go:183-236, 240-262: the stages a, b1..bS, c1..cW, d1..dC and their links. -/
def ingestNet (S W : Nat) (C : Nat) (fn : Nat → Fn α σ) : Net α σ :=
  ⟨1 + S + W + C, fun i => if i = 0 then 0 else if i < 1 + S then 1 else if i < 1 + S + W then 2 else 3, fun _ => .concurrent, fn⟩

end Fpki.Layers
