/-!
# Model of the check of `NewPipeline` and of what relies on it: `pkg/pipeline/pipeline.go:79-122, 171-195`

Of a stage only its type is kept; the options other than `WithStages` do not change the stages.
-/
namespace Fpki.PipeCheck

/-- The types of stages: `Source`, `Stage`, `Sink`. -/
inductive Kind where
  | source
  | stage
  | sink
deriving DecidableEq, Repr

/-- The errors of pipeline.go:181, 192. -/
inductive CheckErr where
  | noSource
  | noSink
deriving DecidableEq, Repr

/-- pipeline.go:171-195 `check`, called by `NewPipeline` (79-100): the indices of the source and the sink of the pipeline. -/
def check (stages : List Kind) : Except CheckErr (Nat × Nat) :=
  match stages.findIdx? (fun k => k = .source) with
  | none => .error .noSource
  | some i =>
    match stages.findIdx? (fun k => k = .sink) with
    | none => .error .noSink
    | some j => .ok (i, j)

/-- pipeline.go:116-118 `SourceStage`: the index of the stage; `none`: the type assertion (or the index) panics. -/
def sourceStage (stages : List Kind) : Option Nat := if stages[0]? = some .source then some 0 else none

/-- pipeline.go:120-122 `SinkStage`. -/
def sinkStage (stages : List Kind) : Option Nat := if stages[stages.length - 1]? = some .sink then some (stages.length - 1) else none

end Fpki.PipeCheck
