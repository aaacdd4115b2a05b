/-!
# Model of `pkg/sync/spin.go`

The operations on the two atomics are atomic; `int32` does not overflow (`workerCount < 2^31`). A failed test of a spin loop changes nothing, so only the successful one is a step.
-/
namespace Fpki.Spin

/-- The goroutine of `Start`: about to store `w`, waiting for `finishedID = w`, or at its end. -/
inductive Starter where
  | store (w : Nat)
  | wait (w : Nat)
  | ended
deriving DecidableEq, Repr

/-- A worker: has not called `Lock`, is between `Lock` and `UnLock`, has called `UnLock`. -/
inductive WorkerState where
  | before | critical | after
deriving DecidableEq, Repr

/-- spin.go:8-12 `SpinLock` and who runs. -/
structure State where
  active : Int
  finished : Int
  starter : Starter
  workers : Nat → WorkerState

/-- spin.go:14-21 `NewSpinLock` and 23-25 `Start`: the loop over `workerCount` begins. -/
def init (n : Nat) : State := ⟨-1, -1, if n = 0 then .ended else .store 0, fun _ => .before⟩

/-- The steps: of the goroutine of `Start` (26, 28-30), a successful `Lock(id)` (41-45), `UnLock(id)` (47-49). -/
inductive Ev where
  | store
  | pass
  | lock (id : Nat)
  | unlock (id : Nat)

/-- One step; `none` if it is not possible. -/
def State.exec (n : Nat) (s : State) : Ev → Option State
  | .store =>
    match s.starter with
    | .store w => some { s with active := w, starter := .wait w }
    | _ => none
  | .pass =>
    match s.starter with
    | .wait w => if s.finished = w then some { s with starter := if w + 1 < n then .store (w + 1) else .ended } else none
    | _ => none
  | .lock id =>
    if s.workers id ≠ .critical ∧ s.active = id then some { s with workers := fun i => if i = id then .critical else s.workers i } else none
  | .unlock id =>
    if s.workers id = .critical then some { s with finished := id, workers := fun i => if i = id then .after else s.workers i } else none

/-- spin.go:35-39: `Wait` returns. -/
def State.waitReturns (n : Nat) (s : State) : Prop := s.finished = (n : Int) - 1

end Fpki.Spin
