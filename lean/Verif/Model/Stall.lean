/-!
# Model of `WithStallStages` (pkg/pipeline/stall_resume.go:93-211)

Any number of stages run the loop of `processThisStage` (stage.go:410-509) with the callbacks that `WithStallStages`
installs. A stage may be in `evaluateAt`, in `stallTheseStages`, in both or in none (at most once in each).
Every operation on one of the two mutexes or on the wait group is one step of the goroutine that does it; goroutines interleave in any way.
`shouldStallPipeline` answers anything. What the select of the stage does (stage.go:418-508) is chosen by the environment.
-/
namespace Fpki.Stall

/-- Where the goroutine of a stage is. -/
inductive Pc where
  /-- stall_resume.go:134: waits for `stallMu`, to evaluate -/
  | waitEval
  /-- 135-138: holds `stallMu`, calls `shouldStallPipeline` -/
  | evaluating
  /-- 178: waits for `stallMu`, to pass -/
  | waitStall
  /-- 179-183: holds `stallMu`, about to release it -/
  | holdStall
  /-- stage.go:418: at the select -/
  | reading
  /-- stall_resume.go:193: has received data, waits for `workingStagesWgMu` -/
  | waitWg
  /-- 196-197: holds `workingStagesWgMu`, about to call `Add(1)` -/
  | holdWg
  /-- 194: has called `Add(1)`, the deferred unlock is next -/
  | added
  /-- stage.go:445-452: runs `ProcessFunc` or `onNoMoreData` -/
  | processing
  /-- stage.go:455-483: sends its outputs -/
  | sending
  /-- stage.go:506: runs `streamFunc` -/
  | streaming
  /-- stage.go:422, 512: the goroutine of the stage has ended (or has not begun) -/
  | done
deriving DecidableEq, Repr

/-- A stage, and whether it is in `evaluateAt` (stall_resume.go:122) and in `stallTheseStages` (167). -/
structure Stg where
  ev : Bool
  st : Bool
  pc : Pc
deriving DecidableEq, Repr

/-- Where a goroutine started at stall_resume.go:143 is. -/
inductive Rel where
  /-- 146: waits for `workingStagesWgMu` -/
  | waitWg
  /-- 149: holds it, in `workingStagesWg.Wait()` -/
  | waiting
  /-- 153: runs `whenStalled` -/
  | running
  /-- 157: about to unlock `stallMu` -/
  | unlockStall
  /-- 147: the deferred unlock of `workingStagesWgMu` is next -/
  | unlockWg
  /-- it has ended -/
  | finished
deriving DecidableEq, Repr

/-- stall_resume.go:108-117: the mutexes, the counter of the wait group; the stages; the goroutines started at 143. `panicked`: an
unlock of an unlocked mutex (a fatal error) or a negative wait group counter (a panic). -/
structure State where
  stallMu : Bool
  wgMu : Bool
  wg : Nat
  stages : List Stg
  rels : List Rel
  panicked : Bool
deriving DecidableEq, Repr

/-- Before the pipeline is resumed: no stage runs. The roles are those of the lists given to `WithStallStages`. -/
def init (roles : List (Bool × Bool)) : State :=
  ⟨false, false, 0, roles.map fun r => ⟨r.1, r.2, .done⟩, [], false⟩

/-- The steps. Of stage `i`: -/
inductive Act where
  /-- the stage is resumed (stage.go:320-334) and calls `onBeforeData` -/
  | resume (i : Nat)
  /-- next iteration of the loop (stage.go:411-412): calls `onBeforeData` -/
  | loop (i : Nat)
  /-- stall_resume.go:134 succeeds -/
  | evalLock (i : Nat)
  /-- 135: `shouldStallPipeline` returned false; 160 -/
  | evalNo (i : Nat)
  /-- 135: it returned true; 143 -/
  | evalYes (i : Nat)
  /-- 178 succeeds -/
  | stallLock (i : Nat)
  /-- 181 -/
  | stallUnlock (i : Nat)
  /-- stage.go:429, 439: data or the end of the data -/
  | receive (i : Nat)
  /-- stage.go:419-427: a stop request or an error of a next stage -/
  | stop (i : Nat)
  /-- stall_resume.go:193 succeeds -/
  | wgLock (i : Nat)
  /-- 197 -/
  | wgAdd (i : Nat)
  /-- 194 -/
  | wgUnlock (i : Nat)
  /-- the process function returned, `onProcessed` (stage.go:453): stall_resume.go:207 -/
  | processed (i : Nat)
  /-- stage.go:506: the streaming function is called -/
  | stream (i : Nat)
  /-- it returned -/
  | streamed (i : Nat)
  /-- stage.go:496, 499 -/
  | finish (i : Nat)
  /-- of the `j`-th goroutine started at 143: 146 succeeds -/
  | rLock (j : Nat)
  /-- 149 returns, `whenStalled` is called -/
  | rWait (j : Nat)
  /-- `whenStalled` returned -/
  | rDone (j : Nat)
  /-- 157 -/
  | rUnlockStall (j : Nat)
  /-- 147 -/
  | rUnlockWg (j : Nat)
deriving DecidableEq, Repr

/-- stall_resume.go:172-174: `onBeforeData` of a stage in `stallTheseStages`, after the evaluation (if any). -/
def afterEval (a : Stg) : Pc := if a.st then .waitStall else .reading

/-- stage.go:412: what `onBeforeData` begins with: the loop at stall_resume.go:122 wraps it first, the loop at 167 wraps the result, which is called first (174). -/
def entry (a : Stg) : Pc := if a.ev then .waitEval else afterEval a

/-- stage.go:439: `onReceivedData` (stall_resume.go:187). -/
def onReceived (a : Stg) : Pc := if a.st then .waitWg else .processing

/-- Replace the position of stage `i`. -/
def State.goto (s : State) (i : Nat) (a : Stg) (pc : Pc) : State :=
  { s with stages := s.stages.set i { a with pc := pc } }

/-- Replace the position of goroutine `j`. -/
def State.relTo (s : State) (j : Nat) (r : Rel) : State := { s with rels := s.rels.set j r }

/-- `stallMu.Unlock()`. -/
def State.unlockStall (s : State) : State := { s with stallMu := false, panicked := s.panicked || !s.stallMu }

/-- `workingStagesWgMu.Unlock()`. -/
def State.unlockWg (s : State) : State := { s with wgMu := false, panicked := s.panicked || !s.wgMu }

/-- `workingStagesWg.Done()`. -/
def State.wgDone (s : State) : State := { s with wg := s.wg - 1, panicked := s.panicked || s.wg == 0 }

/-- A step of stage `i` from position `pc`, if it is there and `ok`. -/
def State.at (s : State) (i : Nat) (pc : Pc) (ok : Bool) (f : Stg → State) : Option State :=
  match s.stages[i]? with
  | some a => if a.pc = pc ∧ ok then some (f a) else none
  | none => none

/-- A step of goroutine `j` from position `r`, if it is there and `ok`. -/
def State.rat (s : State) (j : Nat) (r : Rel) (ok : Bool) (t : State) : Option State :=
  if s.rels[j]? = some r ∧ ok then some t else none

/-- One step; `none` if it is not possible. -/
def State.exec (s : State) : Act → Option State
  | .resume i => s.at i .done true fun a => s.goto i a (entry a)
  | .loop i => s.at i .sending true fun a => s.goto i a (entry a)
  | .evalLock i => s.at i .waitEval (!s.stallMu) fun a => { s.goto i a .evaluating with stallMu := true }
  | .evalNo i => s.at i .evaluating true fun a => (s.goto i a (afterEval a)).unlockStall
  | .evalYes i => s.at i .evaluating true fun a => { s.goto i a (afterEval a) with rels := s.rels ++ [.waitWg] }
  | .stallLock i => s.at i .waitStall (!s.stallMu) fun a => { s.goto i a .holdStall with stallMu := true }
  | .stallUnlock i => s.at i .holdStall true fun a => (s.goto i a .reading).unlockStall
  | .receive i => s.at i .reading true fun a => s.goto i a (onReceived a)
  | .stop i => s.at i .reading true fun a => s.goto i a .done
  | .wgLock i => s.at i .waitWg (!s.wgMu) fun a => { s.goto i a .holdWg with wgMu := true }
  | .wgAdd i => s.at i .holdWg true fun a => { s.goto i a .added with wg := s.wg + 1 }
  | .wgUnlock i => s.at i .added true fun a => (s.goto i a .processing).unlockWg
  | .processed i => s.at i .processing true fun a => if a.st then (s.goto i a .sending).wgDone else s.goto i a .sending
  | .stream i => s.at i .sending true fun a => s.goto i a .streaming
  | .streamed i => s.at i .streaming true fun a => s.goto i a .sending
  | .finish i => s.at i .sending true fun a => s.goto i a .done
  | .rLock j => s.rat j .waitWg (!s.wgMu) { s.relTo j .waiting with wgMu := true }
  | .rWait j => s.rat j .waiting (s.wg == 0) (s.relTo j .running)
  | .rDone j => s.rat j .running true (s.relTo j .unlockStall)
  | .rUnlockStall j => s.rat j .unlockStall true (s.relTo j .unlockWg).unlockStall
  | .rUnlockWg j => s.rat j .unlockWg true (s.relTo j .finished).unlockWg

/-- A sequence of steps. -/
def State.run (s : State) : List Act → Option State
  | [] => some s
  | e :: es => (s.exec e).bind fun s' => s'.run es

/-- The steps that the stages and the goroutines take by themselves once `shouldStallPipeline`, `whenStalled` and the process functions
return: all but those that depend on data arriving, on outputs being accepted or on a new iteration. -/
def Act.internal : Act → Bool
  | .resume _ | .loop _ | .receive _ | .stop _ | .stream _ | .streamed _ | .finish _ => false
  | _ => true

end Fpki.Stall
