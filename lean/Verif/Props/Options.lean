import Verif.Model.Options
/-!
# C209: the options of stages, sources and sinks
-/
namespace Fpki.Options

/-! ## Specification: the last option about a thing counts -/

/-- What the last option for which `pick` gives something asks for. -/
def lastAsked (pick : Opt → Option β) (opts : List Opt) : Option β := (opts.filterMap pick).getLast?

/-- What an option asks for, for every thing that can be asked for. -/
def askProcess : Opt → Option Nat | .stage (.process f) => some f | _ => none
def askStream : Opt → Option Nat | .stage (.stream f) => some f | _ => none
def askIns : Opt → Option Nat | .stage (.multiIn n) => some n | _ => none
def askOuts : Opt → Option Nat | .stage (.multiOut n) => some n | _ => none
def askNoMore : Opt → Option Nat | .stage (.noMoreData f) => some f | _ => none
def askError : Opt → Option Nat | .stage (.errorSending f) => some f | _ => none
def askInputs : Opt → Option Inputs | .stage (.inputs i) => some i | _ => none
def askOutputs : Opt → Option Outputs | .stage (.outputs o) => some o | _ => none
def askClose : Opt → Option Nat | .stage (.closeOut f) => some f | _ => none
def askSource : Opt → Option SourceOpt | .source o => some o | _ => none
def askSink : Opt → Option Nat | .sink f => some f | _ => none

/-- The settings, as far as stage options other than the process function go: the last option of each kind, or the default (reading the inputs and sending
the outputs concurrently, one channel of each). -/
structure AsAsked (opts : List Opt) (s : Settings) : Prop where
  stream : s.stream = lastAsked askStream opts
  ins : s.ins = (lastAsked askIns opts).getD 1
  outs : s.outs = (lastAsked askOuts opts).getD 1
  noMoreData : s.noMoreData = lastAsked askNoMore opts
  errorSending : s.errorSending = lastAsked askError opts
  inputs : s.inputs = (lastAsked askInputs opts).getD .concurrent
  outputs : s.outputs = (lastAsked askOutputs opts).getD .concurrent
  closeOut : s.closeOut = lastAsked askClose opts

/-! ## Proofs -/

theorem field_foldl (get : Settings → β) (step : Settings → Opt → Settings) (pick : Opt → Option β) (h : ∀ s o, get (step s o) = (pick o).getD (get s)) :
    ∀ (opts : List Opt) (s : Settings), get (opts.foldl step s) = (lastAsked pick opts).getD (get s)
  | [], _ => rfl
  | o :: os, s => by
    rw [List.foldl_cons, field_foldl get step pick h os, h]
    unfold lastAsked
    cases ho : pick o with
    | none => simp [List.filterMap_cons, ho]
    | some b =>
      simp only [List.filterMap_cons, ho, Option.getD_some, List.getLast?_cons]

theorem opt_getD (o : Option (Option β)) (o' : Option β) (h : o = o'.map some) : o.getD none = o' := by subst h; cases o' <;> rfl

theorem lastAsked_map (pick : Opt → Option β) (f : β → γ) (opts : List Opt) : lastAsked (fun o => (pick o).map f) opts = (lastAsked pick opts).map f := by
  unfold lastAsked
  rw [← List.map_filterMap, List.getLast?_map]

theorem field_some (get : Settings → Option β) (step : Settings → Opt → Settings) (pick : Opt → Option β) (h : ∀ s o, get (step s o) = ((pick o).map some).getD (get s))
    (opts : List Opt) (s : Settings) (hs : get s = none) : get (opts.foldl step s) = lastAsked pick opts := by
  rw [field_foldl get step _ h, hs, lastAsked_map]
  exact opt_getD _ _ rfl

theorem stage_asked (opts : List Opt) : AsAsked opts (newStage opts) := by
  constructor
  · exact field_some _ _ _ (by rintro s (o | o | o) <;> try cases o <;> rfl) opts _ rfl
  · exact field_foldl (·.ins) _ _ (by rintro s (o | o | o) <;> try cases o <;> rfl) opts _
  · exact field_foldl (·.outs) _ _ (by rintro s (o | o | o) <;> try cases o <;> rfl) opts _
  · exact field_some _ _ _ (by rintro s (o | o | o) <;> try cases o <;> rfl) opts _ rfl
  · exact field_some _ _ _ (by rintro s (o | o | o) <;> try cases o <;> rfl) opts _ rfl
  · exact field_foldl (·.inputs) _ _ (by rintro s (o | o | o) <;> try cases o <;> rfl) opts _
  · exact field_foldl (·.outputs) _ _ (by rintro s (o | o | o) <;> try cases o <;> rfl) opts _
  · exact field_some _ _ _ (by rintro s (o | o | o) <;> try cases o <;> rfl) opts _ rfl

theorem stage_process (opts : List Opt) : (newStage opts).process = ((lastAsked askProcess opts).map .user).getD .none := by
  rw [← lastAsked_map]
  exact field_foldl (·.process) _ _ (by rintro s (o | o | o) <;> try cases o <;> rfl) opts _

theorem same_foldl (get : Settings → β) (step : Settings → Opt → Settings) (h : ∀ s o, get (step s o) = get s) : ∀ (opts : List Opt) (s : Settings),
    get (opts.foldl step s) = get s
  | [], _ => rfl
  | o :: os, s => by rw [List.foldl_cons, same_foldl get step h os, h]

theorem stage_rest (opts : List Opt) : (newStage opts).onResume = .nothing ∧ (newStage opts).sourceFn = none :=
  ⟨same_foldl (·.onResume) _ (by rintro s (o | o | o) <;> try cases o <;> rfl) opts _, same_foldl (·.sourceFn) _ (by rintro s (o | o | o) <;> try cases o <;> rfl) opts _⟩

/-- **C209** (stages): whatever the options and their order, every setting is the one of the last option about it, or the default; options for sources and
sinks have no effect. Without a process function there is none: the first value received would panic. -/
theorem C209_stage (opts : List Opt) :
    AsAsked opts (newStage opts) ∧ (newStage opts).process = ((lastAsked askProcess opts).map .user).getD .none ∧
    newStage (opts.filter fun o => match o with | .stage _ => true | _ => false) = newStage opts := by
  refine ⟨stage_asked opts, stage_process opts, ?_⟩
  unfold newStage
  generalize defaults = s
  induction opts generalizing s with
  | nil => rfl
  | cons o os ih => cases o <;> simp [ih, applyToStage]

/-- What a source does according to its last source option: when it starts, and for every value. -/
def sourceOf : SourceOpt → Process
  | .function g => .generator g
  | .channel c f => .channel c f
  | .slice v f => .slice v f

theorem asked_of_eq {opts : List Opt} {s t : Settings} (h : AsAsked opts s) (h1 : t.stream = s.stream) (h2 : t.ins = s.ins) (h3 : t.outs = s.outs)
    (h4 : t.noMoreData = s.noMoreData) (h5 : t.errorSending = s.errorSending) (h6 : t.inputs = s.inputs) (h7 : t.outputs = s.outputs)
    (h8 : t.closeOut = s.closeOut) : AsAsked opts t :=
  ⟨h1 ▸ h.stream, h2 ▸ h.ins, h3 ▸ h.outs, h4 ▸ h.noMoreData, h5 ▸ h.errorSending, h6 ▸ h.inputs, h7 ▸ h.outputs, h8 ▸ h.closeOut⟩

/-- **C209** (sources): the settings are as for a stage; the process function is the one of the last source option, wherever it is among the options, and
only without one that of the last WithProcessFunction. -/
theorem C209_source (opts : List Opt) :
    AsAsked opts (newSource opts) ∧
    (newSource opts).process = ((lastAsked askSource opts).map sourceOf).getD (((lastAsked askProcess opts).map .user).getD .none) := by
  constructor
  · refine asked_of_eq (stage_asked opts) ?_ ?_ ?_ ?_ ?_ ?_ ?_ ?_ <;>
      exact same_foldl _ _ (by rintro s (o | o | o) <;> try cases o <;> rfl) opts _
  · rw [← stage_process, ← lastAsked_map]
    exact field_foldl (·.process) _ _ (by rintro s (o | o | o) <;> try cases o <;> rfl) opts _

/-- What it does on Resume: set the channel again, or send the values of the slice. -/
def resumeOf : SourceOpt → OnResume
  | .function _ => .nothing
  | .channel c _ => .restore c
  | .slice v _ => .feed v

/-- The function that `SourceProcessFunc` shows: only WithSourceChannel stores one. -/
def shownOf : SourceOpt → Option Nat
  | .channel _ f => some f
  | .function _ => none
  | .slice _ _ => none

/-- **C209** (sources with one source option): what happens on Resume, and the function the accessor shows, are those of this option. -/
theorem C209_source_resume (opts : List Opt) (o : SourceOpt) (h : opts.filterMap askSource = [o]) :
    (newSource opts).onResume = resumeOf o ∧ (newSource opts).sourceFn = shownOf o := by
  have key : ∀ (l : List Opt) (s : Settings), l.foldl applyToSource s = (l.filterMap askSource).foldl setSource s := by
    intro l
    induction l with
    | nil => intro s; rfl
    | cons a l ih => intro s; cases a <;> simp [askSource, applyToSource, ih, List.filterMap_cons]
  rw [newSource, key, h]
  obtain ⟨h1, h2⟩ := stage_rest opts
  cases o <;> simp [setSource, resumeOf, shownOf, h1, h2]

/-- **C209** (sinks): the settings are as for a stage, but there is only one outgoing channel after Prepare, whatever was asked for; the process function is
the one of the last WithSinkFunction, wherever it is among the options, and only without one that of the last WithProcessFunction. -/
theorem C209_sink (opts : List Opt) :
    AsAsked opts (newSink opts) ∧ (prepareSink (newSink opts)).outs = 1 ∧
    (prepareSink (newSink opts)).process = ((lastAsked askSink opts).map .sink).getD (((lastAsked askProcess opts).map .user).getD .none) := by
  refine ⟨?_, rfl, ?_⟩
  · refine asked_of_eq (stage_asked opts) ?_ ?_ ?_ ?_ ?_ ?_ ?_ ?_ <;>
      exact same_foldl _ _ (by rintro s (o | o | o) <;> rfl) opts _
  · show (newSink opts).process = _
    rw [← stage_process, ← lastAsked_map]
    exact field_foldl (·.process) _ _ (by rintro s (o | o | o) <;> rfl) opts _

/-! ## Concrete cases -/

/-- A sink with several options, in an odd order. -/
def someOpts : List Opt := [.sink 4, .stage (.multiIn 3), .stage (.process 7), .stage (.outputs .sequential), .stage (.multiIn 5), .source (.function 1), .stage (.outputs .cyclesAllowed)]

example : newSink someOpts = { defaults with process := .sink 4, ins := 5, outputs := .cyclesAllowed } := by decide +kernel
example : newStage someOpts = { defaults with process := .user 7, ins := 5, outputs := .cyclesAllowed } := by decide +kernel
example : (newSource someOpts).process = .generator 1 := by decide +kernel
example : lastAsked askIns someOpts = some 5 ∧ someOpts.filterMap askSink = [4] := by decide +kernel
/-- `C209_source_resume` needs that there is one source option only: after two, what happens on Resume can be that of the first one (with a slice, a goroutine
that sends its values to nobody). -/
example : (newSource [.source (.slice 1 2), .source (.function 3)]).onResume = .feed 1 ∧
    (newSource [.source (.slice 1 2), .source (.function 3)]).process = .generator 3 := by decide +kernel
example : (newSource [.stage (.multiOut 2), .source (.channel 1 2), .stage (.process 3)]).onResume = .restore 1 ∧
    [Opt.stage (.multiOut 2), .source (.channel 1 2), .stage (.process 3)].filterMap askSource = [.channel 1 2] := ⟨by decide +kernel, rfl⟩

end Fpki.Options
