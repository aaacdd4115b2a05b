/-!
# Model of `pkg/cache/presence_cache.go`

Each operation on an atomic, each insertion into a map and each look-up is one step of the goroutine that does it; goroutines interleave in any way. The counters do not overflow (`int32`). A failed test of a spin loop changes nothing, so only the successful test is a step. IDs are natural numbers (only compared).
-/
namespace Fpki.Presence

/-- Where a goroutine is. `idx = true` is index 1 (the shadow). -/
inductive Thread where
  /-- in no call -/
  | idle
  /-- presence_cache.go:39: `Contains` is about to load the index -/
  | load (id : Nat)
  /-- :40: it has loaded `idx` and is about to increment its counter -/
  | inc (id : Nat) (idx : Bool)
  /-- :41: it is about to load the index again -/
  | check (id : Nat) (idx : Bool)
  /-- :43: the index differs: about to decrement and repeat -/
  | undo (id : Nat) (idx : Bool)
  /-- :47-48: it is reading `sets[idx]` -/
  | reading (id : Nat) (idx : Bool)
  /-- :46, 49: it has read `ok`; the deferred decrement is next -/
  | dec (id : Nat) (idx : Bool) (ok : Bool)
  /-- :49: about to return `ok` -/
  | ret (id : Nat) (ok : Bool)
  /-- :57: `AddIDs` waits for the mutex -/
  | lock (ids : List Nat)
  /-- :61-66: waits until the shadow has no readers -/
  | wait1 (ids : List Nat)
  /-- :68-70: inserts the rest `todo` into `sets[1]` -/
  | write1 (ids todo : List Nat)
  /-- :74-79: waits until `sets[0]` has no readers -/
  | wait0 (ids : List Nat)
  /-- :81-83: inserts the rest `todo` into `sets[0]` -/
  | write0 (ids todo : List Nat)
  /-- :58: the deferred unlock is next -/
  | unlock (ids : List Nat)
deriving DecidableEq, Repr

/-- presence_cache.go:11-17 `PresenceCache`, and the goroutines that use it. -/
structure State where
  sets : Bool → List Nat
  cur : Bool
  count : Bool → Int
  mu : Bool
  threads : List Thread

/-- presence_cache.go:23-33 `NewPresenceCache`, with `n` goroutines in no call. -/
def init (n : Nat) : State := ⟨fun _ => [], false, fun _ => 0, false, List.replicate n .idle⟩

/-- Replace the value at one of the two indexes. -/
def upd {α : Type} (f : Bool → α) (i : Bool) (v : α) : Bool → α := fun j => if j = i then v else f j

/-- What a caller sees. -/
inductive Obs where
  | called (r : Nat) (id : Nat)
  | returned (r : Nat) (id : Nat) (ok : Bool)
  | addCalled (r : Nat) (ids : List Nat)
  | addReturned (r : Nat) (ids : List Nat)
deriving DecidableEq, Repr

/-- A step: goroutine `r`, in no call, calls `Contains` or `AddIDs`, or goroutine `r` takes its next step. -/
inductive Ev where
  | contains (r id : Nat)
  | add (r : Nat) (ids : List Nat)
  | run (r : Nat)
deriving DecidableEq, Repr

/-- Goroutine `r` goes on at `t`. -/
def State.goto (s : State) (r : Nat) (t : Thread) : State := { s with threads := s.threads.set r t }

/-- presence_cache.go:35-86: the next step of goroutine `r`, which is at the given point; with what a caller sees of it. `none`: it cannot go on now. -/
def State.next (s : State) (r : Nat) : Thread → Option (State × List Obs)
  | .idle => none
  | .load id => some (s.goto r (.inc id s.cur), [])
  | .inc id idx => some ({ s.goto r (.check id idx) with count := upd s.count idx (s.count idx + 1) }, [])
  | .check id idx => if s.cur ≠ idx then some (s.goto r (.undo id idx), []) else some (s.goto r (.reading id idx), [])
  | .undo id idx => some ({ s.goto r (.load id) with count := upd s.count idx (s.count idx - 1) }, [])
  | .reading id idx => some (s.goto r (.dec id idx ((s.sets idx).contains id)), [])
  | .dec id idx ok => some ({ s.goto r (.ret id ok) with count := upd s.count idx (s.count idx - 1) }, [])
  | .ret id ok => some (s.goto r .idle, [.returned r id ok])
  | .lock ids => if s.mu then none else some ({ s.goto r (.wait1 ids) with mu := true }, [])
  | .wait1 ids => if s.count true = 0 then some (s.goto r (.write1 ids ids), []) else none
  | .write1 ids (id :: todo) => some ({ s.goto r (.write1 ids todo) with sets := upd s.sets true (id :: s.sets true) }, [])
  | .write1 ids [] => some ({ s.goto r (.wait0 ids) with cur := true }, [])
  | .wait0 ids => if s.count false = 0 then some (s.goto r (.write0 ids ids), []) else none
  | .write0 ids (id :: todo) => some ({ s.goto r (.write0 ids todo) with sets := upd s.sets false (id :: s.sets false) }, [])
  | .write0 ids [] => some ({ s.goto r (.unlock ids) with cur := false }, [])
  | .unlock ids => some ({ s.goto r .idle with mu := false }, [.addReturned r ids])

/-- One step; `none` if it is not possible. -/
def State.exec (s : State) : Ev → Option (State × List Obs)
  | .contains r id => if s.threads[r]? = some .idle then some (s.goto r (.load id), [.called r id]) else none
  | .add r ids => if s.threads[r]? = some .idle then some (s.goto r (.lock ids), [.addCalled r ids]) else none
  | .run r =>
    match s.threads[r]? with
    | some t => s.next r t
    | none => none

/-- The executions of `n` goroutines, with what the callers see. -/
inductive Reach (n : Nat) : List Obs → State → Prop
  | init : Reach n [] (init n)
  | step {tr : List Obs} {s s' : State} {o : List Obs} (e : Ev) : Reach n tr s → s.exec e = some (s', o) → Reach n (tr ++ o) s'

/-- presence_cache.go:86-88 `Size`, read at one instant. -/
def State.size (s : State) : Nat := (s.sets false).eraseDups.length

end Fpki.Presence
