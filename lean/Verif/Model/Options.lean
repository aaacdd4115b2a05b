/-!
# The options of stages, sources and sinks (pkg/pipeline/options.go, withOptions.go; NewStage, NewSource, NewSink)

What an option contains (functions, channels, slices) is given by a number: two options with different functions have different numbers. The names, channels
and errors of a stage, which no option changes, are left out.
-/
namespace Fpki.Options

/-- The process function of a stage, `ProcessFunc`: nil, that of WithProcessFunction, that of WithSourceFunction around a generator, those of WithSourceChannel
and WithSourceSlice, and that of WithSinkFunction. -/
inductive Process
  | none
  | user (f : Nat)
  | generator (g : Nat)
  | channel (c f : Nat)
  | slice (v f : Nat)
  | sink (f : Nat)
deriving DecidableEq

/-- How the inputs are read: `buildAggregatedInput` -/
inductive Inputs
  | concurrent
  | sequential
deriving DecidableEq

/-- How the outputs are sent: `sendOutputs` -/
inductive Outputs
  | concurrent
  | cyclesAllowed
  | sequential
deriving DecidableEq

/-- What happens on Resume: nothing, the channel is set again (source.go:71-78), or a goroutine is started that sends the values of a slice (source.go:114-124). -/
inductive OnResume
  | nothing
  | restore (c : Nat)
  | feed (v : Nat)
deriving DecidableEq

/-- The fields of `Stage` (stage.go:63-86) and `Source` (source.go:18-26) that options set. -/
structure Settings where
  process : Process
  /-- `none` for the function of stage.go:100-102, which ends the streaming at once -/
  stream : Option Nat
  ins : Nat
  outs : Nat
  /-- `none` for the functions that do nothing -/
  noMoreData : Option Nat
  errorSending : Option Nat
  inputs : Inputs
  outputs : Outputs
  /-- `none` for the function that closes the channel, stage.go:111-113 -/
  closeOut : Option Nat
  onResume : OnResume
  sourceFn : Option Nat
deriving DecidableEq

/-- The options for any stage, withOptions.go -/
inductive StageOpt
  | process (f : Nat)
  | stream (f : Nat)
  | multiOut (n : Nat)
  | multiIn (n : Nat)
  | noMoreData (f : Nat)
  | errorSending (f : Nat)
  | inputs (i : Inputs)
  | outputs (o : Outputs)
  | closeOut (f : Nat)

/-- The options for sources, source.go:43-149 -/
inductive SourceOpt
  | function (g : Nat)
  | channel (c f : Nat)
  | slice (v f : Nat)

/-- options.go:3-7: `option` -/
inductive Opt
  | stage (o : StageOpt)
  | source (o : SourceOpt)
  | sink (f : Nat)

/-- withOptions.go:5-116: what the function of a stage option does. -/
def setStage (s : Settings) : StageOpt → Settings
  | .process f => { s with process := .user f }
  | .stream f => { s with stream := some f }
  | .multiOut n => { s with outs := n }
  | .multiIn n => { s with ins := n }
  | .noMoreData f => { s with noMoreData := some f }
  | .errorSending f => { s with errorSending := some f }
  | .inputs i => { s with inputs := i }
  | .outputs o => { s with outputs := o }
  | .closeOut f => { s with closeOut := some f }

/-- source.go:43-52 `WithSourceFunction`, 56-105 `WithSourceChannel`, 107-149 `WithSourceSlice` -/
def setSource (s : Settings) : SourceOpt → Settings
  | .function g => { s with process := .generator g }
  | .channel c f => { s with sourceFn := some f, onResume := .restore c, process := .channel c f }
  | .slice v f => { s with onResume := .feed v, process := .slice v f }

/-- options.go:46-48 and 11: `ApplyToStage`; source and sink options do nothing here. -/
def applyToStage (s : Settings) : Opt → Settings
  | .stage o => setStage s o
  | .source _ => s
  | .sink _ => s

/-- options.go:50-52 and 12: `ApplyToSource` -/
def applyToSource (s : Settings) : Opt → Settings
  | .stage _ => s
  | .source o => setSource s o
  | .sink _ => s

/-- options.go:54-56 and 13: `ApplyToSink`; sink.go:36-46 `WithSinkFunction` -/
def applyToSink (s : Settings) : Opt → Settings
  | .stage _ => s
  | .source _ => s
  | .sink f => { s with process := .sink f }

/-- stage.go:95-113, the defaults -/
def defaults : Settings :=
  { process := .none, stream := none, ins := 1, outs := 1, noMoreData := none, errorSending := none, inputs := .concurrent, outputs := .concurrent,
    closeOut := none, onResume := .nothing, sourceFn := none }

/-- stage.go:90-120 `NewStage` -/
def newStage (opts : List Opt) : Settings := opts.foldl applyToStage defaults

/-- source.go:28-41 `NewSource` -/
def newSource (opts : List Opt) : Settings := opts.foldl applyToSource (newStage opts)

/-- sink.go:21-34 `NewSink` -/
def newSink (opts : List Opt) : Settings := opts.foldl applyToSink (newStage opts)

/-- sink.go:50-65 `PrepareSink`: the outgoing channels are replaced with just one. -/
def prepareSink (s : Settings) : Settings := { s with outs := 1 }

end Fpki.Options
