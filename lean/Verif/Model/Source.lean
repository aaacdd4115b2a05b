/-!
# Model of `WithSourceSlice`: `pkg/pipeline/source.go:104-149`, over several `Resume`s

Every `Resume` (stage.go:318-333 calls `onResume`) makes a channel, stores it in the field `sourceIncomingCh` and starts a goroutine, the feeder, that sends the values of the slice. The feeder looks at
the field again for every value (source.go:118) and for closing (source.go:120). The process function reads one value from the channel that is in the field (source.go:131).
Channels are numbers, in the order they are made; they have no buffer. A run may be given up at any time (the pipeline failed), then the next `Resume` follows.
Simplifications: the elements of the slice do not change, only the slice variable does (`set`); the index given by `processFunction`, and its error, are not modelled.
-/
namespace Fpki.Source
variable {α : Type}

/-- A feeder: started but not yet running; before the next value (or the end); blocked in sending `v` on channel `ch`; ended. `all` is the slice as it was when the loop began (`range` looks once). -/
inductive Feeder (α : Type) where
  | fresh
  | between (all rest : List α)
  | sending (all : List α) (ch : Nat) (v : α) (rest : List α)
  | done (all : List α)
deriving DecidableEq, Repr

/-- `field`: the number of the current channel (0: none yet). `got`: what the process function has returned since the last `Resume`; `ended`: it has returned `NoMoreData`. -/
structure St (α : Type) where
  field : Nat
  closed : Nat → Bool
  feeders : List (Feeder α)
  slice : List α
  got : List α
  ended : Bool
  panic : Bool

def St.init (slice : List α) : St α := ⟨0, fun _ => false, [], slice, [], false, false⟩

inductive Ev (α : Type) where
  | set (vals : List α)
  | resume
  | start (f : Nat)
  | eval (f : Nat)
  | recv (f : Nat)
  | recvEnd

def isSendingOn (ch : Nat) : Feeder α → Bool
  | .sending _ c _ _ => c == ch
  | _ => false

/-- One step. After a panic there is none. -/
def exec (s : St α) : Ev α → Option (St α)
  | .set vals => if s.panic then none else some { s with slice := vals }
  -- source.go:110-122 `onResume`
  | .resume => if s.panic then none else some { s with field := s.field + 1, feeders := s.feeders ++ [.fresh], got := [], ended := false }
  -- source.go:117: `range *incomingValues`
  | .start f =>
    match s.panic, s.feeders[f]? with
    | false, some .fresh => some { s with feeders := s.feeders.set f (.between s.slice s.slice) }
    | _, _ => none
  | .eval f =>
    match s.panic, s.feeders[f]? with
    -- source.go:118: sending on a closed channel panics
    | false, some (.between all (v :: rest)) =>
      if s.closed s.field then some { s with panic := true }
      else some { s with feeders := s.feeders.set f (.sending all s.field v rest) }
    -- source.go:120: closing a closed channel panics, and so do goroutines that send on it
    | false, some (.between all []) =>
      if s.closed s.field || s.feeders.any (isSendingOn s.field) then some { s with panic := true }
      else some { s with closed := fun c => if c = s.field then true else s.closed c, feeders := s.feeders.set f (.done all) }
    | _, _ => none
  -- source.go:131-141
  | .recv f =>
    match s.panic, s.feeders[f]? with
    | false, some (.sending all ch v rest) => if ch = s.field then some { s with feeders := s.feeders.set f (.between all rest), got := s.got ++ [v] } else none
    | _, _ => none
  -- source.go:131, 145: the channel is closed
  | .recvEnd => if !s.panic && s.closed s.field then some { s with ended := true } else none

def run (s : St α) : List (Ev α) → Option (St α)
  | [] => some s
  | e :: es => (exec s e).bind fun s' => run s' es

end Fpki.Source
