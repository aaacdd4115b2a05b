/-
# Model of a pipeline that is resumed again: `pkg/pipeline/stage.go:290-333, 350-390, 412-513`, `pipeline.go:132-156`

`n` stages in a chain, stage 0 is the source, stage `n-1` the sink. What matters here is who closes which channel when, so the data are left out: a stage works, until it
has a reason to leave. `Prepare` gives every stage new channels, in the same fields of the same object (stage.go:290-309); the goroutine of an earlier run still uses these
fields, so it finds there the channels of the newest run. Every run has a number; `cur` is the number of the newest one.

Simplifications: the chain (no fan-out: C85 has the network); the error itself, which travels to the stage before and is taken by it (C85), is not carried, only the closing of
the error channel; reading the field `s.StopCh` and closing the channel is one step; `StopAndWait` (stage.go:339-347), which nothing calls, is left out.
-/

namespace Fpki.Again

/-- Where the goroutine `processThisStage` (stage.go:393-513) of a stage is. -/
inductive Pc where
  /-- not started -/
  | idle
  /-- in the loop, stage.go:411-508 -/
  | work
  /-- in `breakPipelineAndWait`, the outgoing channel is closed, waits for the error channel of the next stage: stage.go:363-365 -/
  | waitNext
  /-- about to close `s.ErrCh`: stage.go:371-381 -/
  | closeErr
  /-- about to close `s.StopCh`: stage.go:383-385 -/
  | closeStop
  /-- returned at stage.go:387-389 -/
  | gone
  /-- returned at stage.go:419-422, because it read from `s.StopCh` -/
  | stopped
deriving DecidableEq, Repr

/-- `pc g i`: the goroutine of stage `i` started in run `g`. `errCl g i`, `stopCl g i`, `outCl g i`: the channel made for stage `i` in run `g` is closed (stage.go:290-309).
`waiting`: the user is in `Wait` (or has not called it yet) since the last `Resume`. `panicked`: a channel was closed twice. -/
structure St where
  cur : Nat
  pc : Nat → Nat → Pc
  outCl : Nat → Nat → Bool
  errCl : Nat → Nat → Bool
  stopCl : Nat → Nat → Bool
  waiting : Bool
  panicked : Bool

/-- Changes one entry of a table. -/
def upd {α : Type} (f : Nat → Nat → α) (g i : Nat) (x : α) : Nat → Nat → α :=
  fun g' i' => if g' = g ∧ i' = i then x else f g' i'

/-- pipeline.go:132-142 `Resume`, for the first time: all stages have new channels and a goroutine. -/
def start (n : Nat) : St where
  cur := 0
  pc := fun g i => if g = 0 ∧ i < n then .work else .idle
  outCl := fun _ _ => false
  errCl := fun _ _ => false
  stopCl := fun _ _ => false
  waiting := true
  panicked := false

inductive Act where
  /-- the loop of stage `i` is left: the source has no more data, the incoming channel is closed, the error channel of the next stage has something, or the
  process function failed (stage.go:424-432, 447-450, 460-469) -/
  | leave (i : Nat)
  /-- stage.go:365 -/
  | gotNext (i : Nat)
  /-- stage.go:381 -/
  | closeErr (i : Nat)
  /-- stage.go:385, by the goroutine of run `g` -/
  | closeStop (g i : Nat)
  /-- stage.go:419 -/
  | stop (i : Nat)
  /-- pipeline.go:144-156: `Wait` returns -/
  | waitReturns
  /-- pipeline.go:132-142: `Resume` -/
  | resume
deriving DecidableEq, Repr

/-- `close(s.StopCh)` (stage.go:385): the field has the channel of the newest run. Closing a closed channel panics. -/
def doCloseStop (s : St) (g i : Nat) : St :=
  { s with
    pc := upd s.pc g i .gone
    stopCl := upd s.stopCl s.cur i true
    panicked := s.panicked || s.stopCl s.cur i }

/-- pipeline.go:132-142 `Resume` again: stage.go:290-309 makes new channels, stage.go:318-333 starts the goroutines. -/
def doResume (n : Nat) (s : St) : St :=
  { s with
    cur := s.cur + 1
    pc := fun g i => if g = s.cur + 1 ∧ i < n then .work else s.pc g i
    waiting := true }

/-- `Step n fails s a s'`: what can happen. `fails g i`: the process function of stage `i` fails in run `g`. -/
inductive Step (n : Nat) (fails : Nat → Nat → Prop) : St → Act → St → Prop
  | leave (s : St) (i : Nat) (hw : s.pc s.cur i = .work)
      (why : i = 0 ∨ fails s.cur i ∨ (0 < i ∧ s.outCl s.cur (i - 1) = true) ∨ (i + 1 < n ∧ s.errCl s.cur (i + 1) = true)) :
      Step n fails s (.leave i) { s with pc := upd s.pc s.cur i .waitNext, outCl := upd s.outCl s.cur i true }
  | gotNext (s : St) (i : Nat) (hw : s.pc s.cur i = .waitNext) (hn : i + 1 < n → s.errCl s.cur (i + 1) = true) :
      Step n fails s (.gotNext i) { s with pc := upd s.pc s.cur i .closeErr }
  | closeErr (s : St) (i : Nat) (hw : s.pc s.cur i = .closeErr) :
      Step n fails s (.closeErr i) { s with pc := upd s.pc s.cur i .closeStop, errCl := upd s.errCl s.cur i true }
  | closeStop (s : St) (g i : Nat) (hw : s.pc g i = .closeStop) : Step n fails s (.closeStop g i) (doCloseStop s g i)
  | stop (s : St) (i : Nat) (hw : s.pc s.cur i = .work) (hs : s.stopCl s.cur i = true) :
      Step n fails s (.stop i) { s with pc := upd s.pc s.cur i .stopped }
  | waitReturns (s : St) (hw : s.waiting = true) (he : s.errCl s.cur 0 = true) : Step n fails s .waitReturns { s with waiting := false }
  | resume (s : St) (hw : s.waiting = false) : Step n fails s .resume (doResume n s)

/-- A sequence of steps. -/
inductive Run (n : Nat) (fails : Nat → Nat → Prop) : St → List Act → St → Prop
  | nil (s : St) : Run n fails s [] s
  | cons {s s' s'' : St} {a : Act} {l : List Act} : Step n fails s a s' → Run n fails s' l s'' → Run n fails s (a :: l) s''

/-- Every goroutine of stage.go:393-513 has returned. -/
def Quiet (n : Nat) (s : St) : Prop := ∀ g i, i < n → s.pc g i = .gone ∨ s.pc g i = .idle ∨ s.pc g i = .stopped

/-- As `Run`, and `Resume` is called only when all goroutines have returned. The API gives the user no way to know that. -/
inductive CarefulRun (n : Nat) (fails : Nat → Nat → Prop) : St → List Act → St → Prop
  | nil (s : St) : CarefulRun n fails s [] s
  | cons {s s' s'' : St} {a : Act} {l : List Act} : Step n fails s a s' → (a = .resume → Quiet n s) → CarefulRun n fails s' l s'' →
      CarefulRun n fails s (a :: l) s''

end Fpki.Again
