import Verif.Model.Stage
/-!
# Model of a whole pipeline: all its stages running at the same time
`pkg/pipeline/{pipeline,source,stage,sink}.go`

Any acyclic network of stages, linked with `LinkStagesAt`, `LinkStagesFanOut` (stage.go:123-152). Stage 0 is the source; a stage without outgoing channel is a sink.
Channels have no buffer: a send and its receive are one step. All goroutines interleave in any way. What is simplified:
* all channels carry one type of values, all stages have one type of state, errors are lists of numbers ([] is nil; `ErrorsCoalesce` is `++`, see C54);
* the source generates a finite script of calls; the goroutine that feeds it with `None{}` (source.go:163-189) is part of its steps `poll` and of `wait`;
* the goroutine of a sink that drains its dummy channel (sink.go:50-58) is part of the sink's step from `waiting`;
* `StreamOutput` (stage.go:471-506): one call gives the list of the batches that are streamed, all known at once; the streaming function does not fail (C37 for that);
* `StopCh` (only used by `StopAndWait`, which no production code calls), `WithStallStages` (C75), criss-cross links (C38) and sequential input (C39) are not part of it.
-/
namespace Fpki.Pipe
open Fpki.Stage (Mode)

variable {α σ : Type}

/-- stage.go:459-470: nil or `StreamOutput`; `NoMoreData`; another error. -/
inductive Outcome where
  | go
  | stop
  | fail (e : Nat)
deriving DecidableEq, Repr

/-- The result of a call of a stage function: batches of outputs with the number of their channel (stage.go:71), sent one batch after the other. -/
structure Call (α : Type) where
  batches : List (List (Nat × α))
  outcome : Outcome
deriving DecidableEq, Repr

/-- The functions of a stage (stage.go:71-75). -/
structure Fn (α σ : Type) where
  process : σ → α → σ × Call α
  finish : σ → σ × Call α

/-- The network: `n` stages, `m` channels; channel `k` goes from stage `src k` to stage `dst k`. -/
structure Net (α σ : Type) where
  n : Nat
  m : Nat
  src : Nat → Nat
  dst : Nat → Nat
  mode : Nat → Mode
  fn : Nat → Fn α σ

def Net.outs (N : Net α σ) (i : Nat) : List Nat := (List.range N.m).filter fun k => N.src k == i
def Net.ins (N : Net α σ) (j : Nat) : List Nat := (List.range N.m).filter fun k => N.dst k == j

/-- stage.go:688, 737: with one channel there are no aggregating goroutines. -/
def Net.multiOut (N : Net α σ) (i : Nat) : Bool := decide (2 ≤ (N.outs i).length)
def Net.multiIn (N : Net α σ) (j : Nat) : Bool := decide (2 ≤ (N.ins j).length)

/-- Where `processThisStage` is (stage.go:391-513). -/
inductive Phase (α : Type) where
  /-- stage.go:418: the select -/
  | reading
  /-- stage.go:444-452: in the process function, or in the end function -/
  | processing (v : Option α)
  /-- the same for the source, with the result of the call -/
  | producing (c : Call α)
  /-- stage.go:472-507: in `sendOutputs` with outputs still to send, the batches that follow, `shouldBreakReadingIncoming`, `sendingError`, `foundError` -/
  | sending (pend : List (Nat × α)) (rest : List (List (Nat × α))) (brk err : Bool) (found : List Nat)
  /-- stage.go:350-361: in `breakPipelineAndWait`, its channels are not closed yet -/
  | breaking (found : List Nat)
  /-- stage.go:365: waiting for the error of the next stages -/
  | waiting (found : List Nat)
  /-- stage.go:374-377: sending its error -/
  | reporting (e : List Nat)
  /-- stage.go:381: its error channel is closed -/
  | finished
deriving DecidableEq, Repr

/-- stage.go:354-361: the outgoing channels are closed. -/
def Phase.outClosed : Phase α → Bool
  | .waiting _ => true
  | .reporting _ => true
  | .finished => true
  | _ => false

def Phase.isFinished : Phase α → Bool
  | .finished => true
  | _ => false

def Phase.isWaiting : Phase α → Bool
  | .waiting _ => true
  | _ => false

/-- `slot k`: the value held by the goroutine that reads channel `k` for a stage with several of them (stage.go:765-775). `held k`: the error held by the goroutine
that reads the error channel of the next stage on channel `k`, for a stage with several of them (stage.go:703-712). `result`: what `Wait` has returned.
Observations: `got j`: what stage `j` has received, with the channel, in order; `fails i`: the errors that the functions of stage `i` have returned. -/
structure St (α σ : Type) where
  phase : Nat → Phase α
  st : Nat → σ
  slot : Nat → Option α
  held : Nat → Option (List Nat)
  script : List (Call α)
  result : Option (List Nat)
  got : Nat → List (Nat × α)
  fails : Nat → List Nat

def upd {β : Type} (f : Nat → β) (i : Nat) (v : β) : Nat → β := fun j => if j = i then v else f j

/-- pipeline.go:132-140 `Resume` -/
def St.init (s0 : Nat → σ) (script : List (Call α)) : St α σ :=
  ⟨fun _ => .reading, s0, fun _ => none, fun _ => none, script, none, fun _ => [], fun _ => []⟩

/-- stage.go:459-480: after the process function. -/
def afterCall (c : Call α) : Phase α :=
  match c.outcome with
  | .fail e => .breaking [e]
  | .stop => .sending (c.batches.headD []) [] true false []
  | .go => .sending (c.batches.headD []) c.batches.tail false false []

/-- stage.go:444-449, 459-480: after the end function. -/
def afterEnd (c : Call α) : Phase α :=
  match c.outcome with
  | .fail e => .breaking [e]
  | _ => .sending (c.batches.headD []) [] true false []

def Call.failure (c : Call α) : List Nat :=
  match c.outcome with
  | .fail e => [e]
  | _ => []

/-- stage.go:493-506: after `sendOutputs`. -/
def afterSent (rest : List (List (Nat × α))) (brk err : Bool) (found : List Nat) : Phase α :=
  if brk || err then .breaking found
  else match rest with
    | [] => .reading
    | b :: bs => .sending b bs false false found

/-- stage.go:374-381 -/
def report : List Nat → Phase α
  | [] => .finished
  | e => .reporting e

/-- The positions of `pend` that can be handled: stage.go:527 in order, 577 and 635 any. -/
def allowed (m : Mode) (p : Nat) : Bool := m != .sequential || p == 0

/-- stage.go:540-546, 595-603: the output at `p` is given up; 653-662: all of them are. -/
def dropAt (m : Mode) (pend : List (Nat × α)) (p : Nat) : List (Nat × α) := if m = .cycles then [] else pend.eraseIdx p

/-- Receiving `e` from `NextStagesAggregatedErrCh`: stage.go:424-427 (reading), 540, 595, 653 (sending), 365-369 (waiting). -/
def recv (m : Mode) (ph : Phase α) (e : List Nat) (p : Nat) : Option (Phase α) :=
  match ph with
  | .reading => if p = 0 then some (.breaking e) else none
  | .waiting f => if p = 0 then some (report (f ++ e)) else none
  | .sending pend rest brk _ _ => if p < pend.length && allowed m p then some (.sending (dropAt m pend p) rest brk true e) else none
  | _ => none

/-- `NextStagesAggregatedErrCh` of stage `i` is closed: stage.go:718-726; with one channel it is the error channel of the next stage itself; sink.go:50-58 -/
def nilReady (N : Net α σ) (s : St α σ) (i : Nat) : Bool :=
  (N.outs i != [] || (s.phase i).isWaiting) && (N.outs i).all fun k => (s.phase (N.dst k)).isFinished && (s.held k).isNone

/-- The aggregated input of stage `j` is closed: stage.go:779-785; with one channel it is the channel itself. -/
def inClosed (N : Net α σ) (s : St α σ) (j : Nat) : Bool := (N.ins j).all fun k => (s.phase (N.src k)).outClosed && (s.slot k).isNone

inductive Ev where
  /-- the source gets `None{}`: source.go:168 -/
  | poll
  /-- the value at position `p` of what `src k` is sending goes to channel `k`, and is taken by the goroutine of `dst k`, or by `dst k` itself -/
  | push (k p : Nat)
  | direct (k p : Nat)
  /-- stage `dst k` takes the value that its goroutine holds -/
  | pull (k : Nat)
  /-- stage `j` sees the end of its input -/
  | closed (j : Nat)
  /-- the function returns -/
  | call (i : Nat)
  /-- all outputs are sent or given up -/
  | sent (i : Nat)
  /-- the outgoing channels are closed -/
  | close (i : Nat)
  /-- the goroutine of `src k` takes the error of `dst k` -/
  | forward (k : Nat)
  /-- `src k` receives the error of `dst k` -/
  | errFrom (k p : Nat)
  /-- stage `i` receives nil, the error channels of the next stages are closed -/
  | errNil (i p : Nat)
  /-- `Wait` returns -/
  | wait
deriving DecidableEq, Repr

def exec (N : Net α σ) (s : St α σ) : Ev → Option (St α σ)
  | .poll =>
    match s.phase 0 with
    | .reading =>
      match s.script with
      | [] => some { s with phase := upd s.phase 0 (.processing none) }
      | c :: cs => some { s with phase := upd s.phase 0 (.producing c), script := cs }
    | _ => none
  | .push k p =>
    match s.phase (N.src k), s.slot k with
    | .sending pend rest brk err found, none =>
      match pend[p]? with
      | some (k', v) =>
        if k < N.m && k' == k && allowed (N.mode (N.src k)) p && N.multiIn (N.dst k) then
          some { s with phase := upd s.phase (N.src k) (.sending (pend.eraseIdx p) rest brk err found), slot := upd s.slot k (some v) }
        else none
      | none => none
    | _, _ => none
  | .direct k p =>
    match s.phase (N.src k), s.phase (N.dst k) with
    | .sending pend rest brk err found, .reading =>
      match pend[p]? with
      | some (k', v) =>
        if k < N.m && k' == k && allowed (N.mode (N.src k)) p && !N.multiIn (N.dst k) then
          some { s with phase := upd (upd s.phase (N.src k) (.sending (pend.eraseIdx p) rest brk err found)) (N.dst k) (.processing (some v)),
                        got := upd s.got (N.dst k) (s.got (N.dst k) ++ [(k, v)]) }
        else none
      | none => none
    | _, _ => none
  | .pull k =>
    match s.phase (N.dst k), s.slot k with
    | .reading, some v =>
      if k < N.m then
        some { s with phase := upd s.phase (N.dst k) (.processing (some v)), slot := upd s.slot k none, got := upd s.got (N.dst k) (s.got (N.dst k) ++ [(k, v)]) }
      else none
    | _, _ => none
  | .closed j =>
    match s.phase j with
    | .reading => if 0 < j && j < N.n && inClosed N s j then some { s with phase := upd s.phase j (.processing none) } else none
    | _ => none
  | .call i =>
    if i < N.n then
      match s.phase i with
      | .processing (some v) =>
        let r := (N.fn i).process (s.st i) v
        some { s with phase := upd s.phase i (afterCall r.2), st := upd s.st i r.1, fails := upd s.fails i (s.fails i ++ r.2.failure) }
      | .processing none =>
        if i = 0 then some { s with phase := upd s.phase 0 (.sending [] [] true false []) }
        else
          let r := (N.fn i).finish (s.st i)
          some { s with phase := upd s.phase i (afterEnd r.2), st := upd s.st i r.1, fails := upd s.fails i (s.fails i ++ r.2.failure) }
      | .producing c => some { s with phase := upd s.phase i (afterCall c), fails := upd s.fails i (s.fails i ++ c.failure) }
      | _ => none
    else none
  | .sent i =>
    match s.phase i with
    | .sending [] rest brk err found => if i < N.n then some { s with phase := upd s.phase i (afterSent rest brk err found) } else none
    | _ => none
  | .close i =>
    match s.phase i with
    | .breaking f => if i < N.n then some { s with phase := upd s.phase i (.waiting f) } else none
    | _ => none
  | .forward k =>
    match s.phase (N.dst k), s.held k with
    | .reporting e, none => if k < N.m && N.multiOut (N.src k) then some { s with phase := upd s.phase (N.dst k) .finished, held := upd s.held k (some e) } else none
    | _, _ => none
  | .errFrom k p =>
    if k < N.m then
      if N.multiOut (N.src k) then
        match s.held k with
        | some e =>
          match recv (N.mode (N.src k)) (s.phase (N.src k)) e p with
          | some ph => some { s with phase := upd s.phase (N.src k) ph, held := upd s.held k none }
          | none => none
        | none => none
      else
        match s.phase (N.dst k) with
        | .reporting e =>
          match recv (N.mode (N.src k)) (s.phase (N.src k)) e p with
          | some ph => some { s with phase := upd (upd s.phase (N.src k) ph) (N.dst k) .finished }
          | none => none
        | _ => none
    else none
  | .errNil i p =>
    if i < N.n && nilReady N s i then
      match recv (N.mode i) (s.phase i) [] p with
      | some ph => some { s with phase := upd s.phase i ph }
      | none => none
    else none
  | .wait =>
    match s.result, s.phase 0 with
    | none, .reporting e => some { s with phase := upd s.phase 0 .finished, result := some e }
    | none, .finished => some { s with result := some [] }
    | _, _ => none

def run (N : Net α σ) (s : St α σ) : List Ev → Option (St α σ)
  | [] => some s
  | e :: es => (exec N s e).bind fun s' => run N s' es

end Fpki.Pipe
