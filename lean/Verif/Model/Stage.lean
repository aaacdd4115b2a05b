import Verif.Model.Util

/-!
# Model of `pkg/pipeline/stage.go`

One stage is a transition system: the environment (the other stages and the Go scheduler) chooses which
of the ready cases of a `select` happens. The errors of the next stages arrive on one channel
(`NextStagesAggregatedErrCh`): a list of errors still to come, after which the channel is closed and
yields nil at any time.
-/
namespace Fpki.Stage
open Fpki.Util (Err errorsCoalesce removeElements removeElem)

/-- The error result of a stage function: nil, `StreamOutput`, `NoMoreData` (stage.go:843-850) or any
other error. -/
inductive Res where
  | ok
  | stream
  | noMore
  | fail (e : Err)

/-- The user functions of a stage (stage.go:71-75), with their own state `σ`. Simplification: the streaming
function does not look at the slices it gets. -/
structure Fns (σ ι ω : Type) where
  process : σ → ι → σ × List ω × List Nat × Res
  stream : σ → σ × List ω × List Nat × Res
  noMoreData : σ → σ × List ω × List Nat × Res

/-- Which `sendOutputs` the stage uses (withOptions.go:83-110); `concurrent` is the default
(stage.go:109). -/
inductive Mode where
  | sequential
  | concurrent
  | cycles
deriving DecidableEq

/-- The local variables of a `sendOutputs*` call: the slices, and the indices still to handle
(sequential, stage.go:527, concurrent, stage.go:577: one goroutine each), respectively the current
index of the round and the indices completed in it (cycles, stage.go:632-635). -/
inductive Snd (ω : Type) where
  | indices (outs : List ω) (chs : List Nat) (pending : List Nat)
  | round (outs : List ω) (chs : List Nat) (i : Nat) (completed : List Nat) (stopSending : Bool)

/-- Start of a `sendOutputs*` call (stage.go:526-527, 569-577, 628-635). -/
def Snd.start (m : Mode) (outs : List ω) (chs : List Nat) : Snd ω :=
  match m with
  | .cycles => .round outs chs 0 [] false
  | _ => .indices outs chs (List.range outs.length)

/-- Where `processThisStage` is (stage.go:391-513): at the select reading input; in `sendOutputs`
with the result `res` of the last function and the flag `shouldBreakReadingIncoming`; returned because of a
stop request; about to call `breakPipelineAndWait` (stage.go:512). -/
inductive Phase (ω : Type) where
  | reading
  | sending (snd : Snd ω) (res : Res) (brk : Bool)
  | stopped
  | broken

/-- State of a stage. `input` and `errs` are what the previous and next stages still deliver before
closing the channel. Ghost fields: `processed` inputs, `produced` outputs with their channel,
`failure` the error returned by the process or end function, `streamFailure` by the streaming function,
`received` the errors received from the next stages. -/
structure St (σ ι ω : Type) where
  fns : σ
  phase : Phase ω
  input : List ι
  errs : List Err
  sent : List (Nat × ω)
  found : Err
  sendingError : Bool
  shouldReturn : Bool
  processed : List ι
  produced : List (Nat × ω)
  failure : Option Err
  streamFailure : Option Err
  received : List Err

/-- Start of a stage (stage.go:391-409). -/
def St.init (f : σ) (input : List ι) (errs : List Err) : St σ ι ω :=
  { fns := f, phase := .reading, input := input, errs := errs, sent := [], found := .nil, sendingError := false,
    shouldReturn := false, processed := [], produced := [], failure := none, streamFailure := none, received := [] }

/-- Receiving from `NextStagesAggregatedErrCh`: the next error, or nil once the channel is closed. -/
def recvErr (errs : List Err) : Err × List Err :=
  match errs with
  | [] => (.nil, [])
  | e :: es => (e, es)

/-- The pairs of channel and value. -/
def pairs (outs : List ω) (chs : List Nat) : List (Nat × ω) := chs.zip outs

/-- After the process function (stage.go:451) or the end function (stage.go:448-449, `brk` true): the
switch at stage.go:459-470 and the first `sendOutputs` call. -/
def afterCall (m : Mode) (s : St σ ι ω) (r : σ × List ω × List Nat × Res) (brk : Bool) : St σ ι ω :=
  match r.2.2.2 with
  | .fail e => { s with fns := r.1, phase := .broken, found := e, failure := some e }
  | res =>
    let brk' := brk || (match res with | .noMore => true | _ => false)
    { s with fns := r.1, phase := .sending (Snd.start m r.2.1 r.2.2.1) res brk', produced := s.produced ++ pairs r.2.1 r.2.2.1 }

/-- After `sendOutputs` returned: stage.go:490-506. -/
def afterSend (fns : Fns σ ι ω) (m : Mode) (s : St σ ι ω) (res : Res) (brk : Bool) : St σ ι ω :=
  if s.shouldReturn then { s with phase := .stopped }
  else if brk || s.sendingError then { s with phase := .broken }
  else
    match res with
    | .stream =>
      let r := fns.stream s.fns
      { s with
        fns := r.1
        phase := .sending (Snd.start m r.2.1 r.2.2.1) r.2.2.2 brk
        produced := s.produced ++ pairs r.2.1 r.2.2.1
        streamFailure := match r.2.2.2 with | .fail e => some e | _ => s.streamFailure }
    | _ => { s with phase := .reading }

/-- Steps of the stage's goroutine. -/
inductive Step (fns : Fns σ ι ω) (m : Mode) : St σ ι ω → St σ ι ω → Prop
  /-- stage.go:419-422 -/
  | stop (s : St σ ι ω) (h : s.phase = .reading) : Step fns m s { s with phase := .stopped }
  /-- stage.go:424-427 -/
  | nextErr (s : St σ ι ω) (h : s.phase = .reading) :
      Step fns m s { s with phase := .broken, found := (recvErr s.errs).1, errs := (recvErr s.errs).2, received := s.received ++ s.errs.take 1 }
  /-- stage.go:429, 451 -/
  | input (s : St σ ι ω) (x : ι) (rest : List ι) (h : s.phase = .reading) (hi : s.input = x :: rest) :
      Step fns m s (afterCall m { s with input := rest, processed := s.processed ++ [x] } (fns.process s.fns x) false)
  /-- stage.go:429, 445-449 -/
  | closed (s : St σ ι ω) (h : s.phase = .reading) (hi : s.input = []) :
      Step fns m s (afterCall m s (fns.noMoreData s.fns) true)
  /-- stage.go:537-540 and 590-593: the value of index `i` is sent; the sequential loop takes the first
  index, the goroutines run in any order. -/
  | send (s : St σ ι ω) (outs : List ω) (chs pre post : List Nat) (i c : Nat) (x : ω) (res : Res) (brk : Bool)
      (h : s.phase = .sending (.indices outs chs (pre ++ i :: post)) res brk) (hm : m = .sequential → pre = [])
      (hx : outs[i]? = some x) (hc : chs[i]? = some c) :
      Step fns m s { s with phase := .sending (.indices outs chs (pre ++ post)) res brk, sent := s.sent ++ [(c, x)] }
  /-- stage.go:541-547 and 594-602 -/
  | sendErr (s : St σ ι ω) (outs : List ω) (chs pre post : List Nat) (i : Nat) (res : Res) (brk : Bool)
      (h : s.phase = .sending (.indices outs chs (pre ++ i :: post)) res brk) (hm : m = .sequential → pre = []) :
      Step fns m s { s with phase := .sending (.indices outs chs (pre ++ post)) res brk, found := (recvErr s.errs).1, errs := (recvErr s.errs).2, sendingError := true, received := s.received ++ s.errs.take 1 }
  /-- stage.go:548-551 and 603-608 -/
  | sendStop (s : St σ ι ω) (outs : List ω) (chs pre post : List Nat) (i : Nat) (res : Res) (brk : Bool)
      (h : s.phase = .sending (.indices outs chs (pre ++ i :: post)) res brk) (hm : m = .sequential → pre = []) :
      Step fns m s { s with phase := .sending (.indices outs chs (pre ++ post)) res brk, shouldReturn := true }
  /-- stage.go:555 and 613-615 -/
  | sendDone (s : St σ ι ω) (outs : List ω) (chs : List Nat) (res : Res) (brk : Bool)
      (h : s.phase = .sending (.indices outs chs []) res brk) : Step fns m s (afterSend fns m s res brk)
  /-- stage.go:646-652 -/
  | trySend (s : St σ ι ω) (outs : List ω) (chs done : List Nat) (i c : Nat) (x : ω) (res : Res) (brk : Bool)
      (h : s.phase = .sending (.round outs chs i done false) res brk)
      (hx : outs[i]? = some x) (hc : chs[i]? = some c) :
      Step fns m s { s with phase := .sending (.round outs chs (i + 1) (done ++ [i]) false) res brk, sent := s.sent ++ [(c, x)] }
  /-- stage.go:653-662: the round ends at once -/
  | tryErr (s : St σ ι ω) (outs : List ω) (chs done : List Nat) (i : Nat) (res : Res) (brk : Bool)
      (h : s.phase = .sending (.round outs chs i done false) res brk) (hi : i < outs.length) :
      Step fns m s { s with phase := .sending (.round outs chs outs.length done true) res brk, found := (recvErr s.errs).1, errs := (recvErr s.errs).2, received := s.received ++ s.errs.take 1 }
  /-- stage.go:663-666 -/
  | tryStop (s : St σ ι ω) (outs : List ω) (chs done : List Nat) (i : Nat) (res : Res) (brk : Bool)
      (h : s.phase = .sending (.round outs chs i done false) res brk) (hi : i < outs.length) :
      Step fns m s { s with phase := .sending (.round outs chs (i + 1) done false) res brk, shouldReturn := true }
  /-- stage.go:667-671 -/
  | notReady (s : St σ ι ω) (outs : List ω) (chs done : List Nat) (i : Nat) (res : Res) (brk : Bool)
      (h : s.phase = .sending (.round outs chs i done false) res brk) (hi : i < outs.length) :
      Step fns m s { s with phase := .sending (.round outs chs (i + 1) done false) res brk }
  /-- stage.go:673-681: the completed ones are removed from both slices and another round starts. `rnd1`,
  `rnd2` are the random numbers used by the sorting inside. -/
  | nextRound (s : St σ ι ω) (outs outs' : List ω) (chs chs' done : List Nat) (i : Nat) (res : Res) (brk : Bool)
      (rnd1 rnd2 : Nat → Nat) (h : s.phase = .sending (.round outs chs i done false) res brk) (hi : i = outs.length)
      (ho : removeElements rnd1 outs done = some outs') (hc : removeElements rnd2 chs done = some chs')
      (hne : outs' ≠ []) (hr : s.shouldReturn = false) :
      Step fns m s { s with phase := .sending (.round outs' chs' 0 [] false) res brk }
  /-- stage.go:673-686: all sent, or stopped, or an error arrived. -/
  | lastRound (s : St σ ι ω) (outs outs' : List ω) (chs chs' done : List Nat) (i : Nat) (stopSending : Bool) (res : Res) (brk : Bool)
      (rnd1 rnd2 : Nat → Nat) (h : s.phase = .sending (.round outs chs i done stopSending) res brk) (hi : i = outs.length)
      (ho : removeElements rnd1 outs done = some outs') (hc : removeElements rnd2 chs done = some chs')
      (hend : outs' = [] ∨ s.shouldReturn = true ∨ stopSending = true) :
      Step fns m s (afterSend fns m { s with sendingError := s.sendingError || stopSending } res brk)

/-- Every schedule of a stage. -/
inductive Run (fns : Fns σ ι ω) (m : Mode) : St σ ι ω → St σ ι ω → Prop
  | refl (s : St σ ι ω) : Run fns m s s
  | step {s t u : St σ ι ω} : Run fns m s t → Step fns m t u → Run fns m s u

/-- stage.go:351-389 `breakPipelineAndWait`, in phase `broken`: reads one more error of the next stages and
reports the coalesced error; nil is not sent, the previous stage then just sees the channel closed. -/
def St.report (s : St σ ι ω) : Err := errorsCoalesce [s.found, (recvErr s.errs).1]

/-- What the previous stage finds on its error channel: stage.go:374-381. -/
def St.errsForPrev (s : St σ ι ω) : List Err :=
  match s.report with
  | .nil => []
  | e => [e]

/-! ## The CSV reading stage -/

/-- cmd/ingest/csvSplitWorker.go:92-147: what reading one file gives: its lines, then nil or an error on `done`.
`none` as file: it cannot be opened. -/
structure CsvFile (β : Type) where
  openErr : Option Err
  lines : List β
  doneErr : Option Err

/-- cmd/ingest/csvSplitWorker.go:36-71: the process and streaming functions. The state is what the file being read
still yields. -/
def csvSplit : Fns (List β × Option Err) (CsvFile β) β where
  process _ f :=
    match f.openErr with
    | some e => (([], none), [], [], .fail e)
    | none => ((f.lines, f.doneErr), [], [], .stream)
  stream st :=
    match st.1 with
    | l :: ls => ((ls, st.2), [l], [0], .stream)
    | [] =>
      match st.2 with
      | some e => (([], none), [], [], .fail e)
      | none => (([], none), [], [], .ok)
  noMoreData st := (st, [], [], .ok)

/-! ## Reading several input channels -/

/-- stage.go:808-827: the loop of `readIncomingSequentially`. Channels are given with an identification and the values
they deliver before they are closed; `fuel` bounds the iterations (`none` if exceeded, or on an index panic). Go's
`i--` followed by `(i + 1) % len` is `i % len`. -/
def readSeq : Nat → Nat → List (κ × List α) → Option (List (κ × α))
  | 0, _, _ => none
  | fuel + 1, i, chans =>
    match chans[i]? with
    | none => none
    | some (k, []) =>
      match removeElem chans i with
      | none => none
      | some chans' => if chans'.length = 0 then some [] else readSeq fuel (i % chans'.length) chans'
    | some (k, x :: xs) =>
      (readSeq fuel ((i + 1) % chans.length) (chans.set i (k, xs))).map ((k, x) :: ·)

/-- stage.go:794-833 `readIncomingSequentially`: everything sent to the aggregated channel before it is closed. -/
def readIncomingSequentially (chans : List (List α)) : Option (List (Nat × α)) :=
  readSeq ((chans.map (·.length + 1)).sum + 1) 0 ((List.range chans.length).zip chans)

/-- State of `readIncomingConcurrently` (stage.go:759-792): per channel the values to come and the value read but not yet
forwarded; `live` goroutines not yet done; what was forwarded; and whether the aggregated channel is closed. -/
structure Agg (α : Type) where
  chans : List (List α)
  hold : List (Option α)
  live : List Bool
  out : List (Nat × α)
  closed : Bool

/-- stage.go:761-765 -/
def Agg.init (chans : List (List α)) : Agg α :=
  { chans := chans, hold := chans.map (fun _ => none), live := chans.map (fun _ => true), out := [], closed := false }

/-- Steps of the goroutines of `readIncomingConcurrently`. -/
inductive AggStep : Agg α → Agg α → Prop
  /-- stage.go:772: goroutine `i` reads a value -/
  | read (a : Agg α) (i : Nat) (x : α) (xs : List α) (hl : a.live[i]? = some true) (hc : a.chans[i]? = some (x :: xs))
      (hh : a.hold[i]? = some none) : AggStep a { a with chans := a.chans.set i xs, hold := a.hold.set i (some x) }
  /-- stage.go:775: and forwards it -/
  | forward (a : Agg α) (i : Nat) (x : α) (hl : a.live[i]? = some true) (hh : a.hold[i]? = some (some x)) (ho : a.closed = false) :
      AggStep a { a with hold := a.hold.set i none, out := a.out ++ [(i, x)] }
  /-- stage.go:771-780: its channel is closed -/
  | finish (a : Agg α) (i : Nat) (hl : a.live[i]? = some true) (hc : a.chans[i]? = some []) (hh : a.hold[i]? = some none) :
      AggStep a { a with live := a.live.set i false }
  /-- stage.go:784-790: all goroutines are done -/
  | close (a : Agg α) (h : ∀ b ∈ a.live, b = false) (ho : a.closed = false) : AggStep a { a with closed := true }

/-- Every schedule of the goroutines. -/
inductive AggRun : Agg α → Agg α → Prop
  | refl (a : Agg α) : AggRun a a
  | step {a b c : Agg α} : AggRun a b → AggStep b c → AggRun a c

/-! ## Criss-cross links -/

/-- What a producer stage is doing: sending its values, about to count its close request, about to close the channel,
finished. -/
inductive PState (α : Type) where
  | sending (vals : List α)
  | requested
  | closing
  | finished

/-- The shared channel of `LinkStagesCrissCross` (stage.go:200-232): the producers, the atomic counter of close requests, how
often the channel was closed, whether somebody sent on or closed a closed channel (a Go panic), and the values received by
the consumers with the consumer's number; ghost: the values not sent by producers that ended early (on an error). -/
structure Cross (α : Type) where
  prods : List (PState α)
  count : Nat
  closes : Nat
  panicked : Bool
  got : List (Nat × α)
  dropped : List α

/-- stage.go:201, 219 -/
def Cross.init (vals : List (List α)) : Cross α :=
  { prods := vals.map .sending, count := 0, closes := 0, panicked := false, got := [], dropped := [] }

/-- Steps: sends are received by any consumer (unbuffered channel), then `closeOutChannel` (stage.go:221-231) is called once by
each producer when it breaks (stage.go:355-361); counting and closing are two steps. -/
inductive CrossStep : Cross α → Cross α → Prop
  | send (c : Cross α) (i k : Nat) (x : α) (xs : List α) (h : c.prods[i]? = some (.sending (x :: xs))) :
      CrossStep c { c with prods := c.prods.set i (.sending xs), got := c.got ++ [(k, x)], panicked := c.panicked || decide (0 < c.closes) }
  | request (c : Cross α) (i : Nat) (xs : List α) (h : c.prods[i]? = some (.sending xs)) :
      CrossStep c { c with prods := c.prods.set i .requested, dropped := c.dropped ++ xs }
  | add (c : Cross α) (i : Nat) (h : c.prods[i]? = some .requested) :
      CrossStep c { c with
        prods := c.prods.set i (if c.count + 1 = c.prods.length then .closing else .finished), count := c.count + 1 }
  | close (c : Cross α) (i : Nat) (h : c.prods[i]? = some .closing) :
      CrossStep c { c with prods := c.prods.set i .finished, closes := c.closes + 1, panicked := c.panicked || decide (0 < c.closes) }

/-- Every schedule of producers and consumers. -/
inductive CrossRun : Cross α → Cross α → Prop
  | refl (c : Cross α) : CrossRun c c
  | step {a b c : Cross α} : CrossRun a b → CrossStep b c → CrossRun a c

end Fpki.Stage
