/-!
# Sending to several channels at once (pkg/util/channels.go)

`SendToAllChannels` on unbuffered channels, with any receivers. The goroutines of the call, the values they still hold and what was received are explicit.
-/
namespace Fpki.SendAll

/-- A goroutine of the call: not started, waiting at its send, or done (`wg.Done`, in its defer). -/
inductive Gor
  | new
  | sending
  | done
deriving DecidableEq

/-- A call with the channels `chs` (by number) and the value `v`: its goroutines, the counter of the wait group, how many goroutines have been started by the
loop, whether it has returned; and everything received from the channels while it runs, in order. -/
structure St where
  gors : List Gor
  wg : Nat
  started : Nat
  returned : Bool
  got : List (Nat × Nat)

/-- channels.go:8-9: `wg.Add(len(channels))`. -/
def start (chs : List Nat) : St := ⟨chs.map fun _ => .new, chs.length, 0, false, []⟩

/-- What can happen next. -/
inductive Ev
  /-- the loop starts the next goroutine, channels.go:10-15 -/
  | go
  /-- goroutine `i` comes to its send -/
  | run (i : Nat)
  /-- somebody receives the value that goroutine `i` offers, channels.go:14, after which it is done (13) -/
  | receive (i : Nat)
  /-- `wg.Wait` returns, channels.go:17 -/
  | ret
deriving DecidableEq

/-- One step; none if it cannot happen now. `chs` and `v` are the arguments. -/
def step (chs : List Nat) (v : Nat) (s : St) : Ev → Option St
  | .go => if s.started < chs.length then some { s with started := s.started + 1 } else none
  | .run i => if i < s.started ∧ s.gors[i]? = some .new then some { s with gors := s.gors.set i .sending } else none
  | .receive i =>
    match chs[i]? with
    | some c => if s.gors[i]? = some .sending then some { s with gors := s.gors.set i .done, wg := s.wg - 1, got := s.got ++ [(c, v)] } else none
    | none => none
  | .ret => if s.started = chs.length ∧ s.wg = 0 ∧ s.returned = false then some { s with returned := true } else none

/-- The states of a call. -/
inductive Reach (chs : List Nat) (v : Nat) : St → Prop
  | start : Reach chs v (start chs)
  | step {s s' : St} (ev : Ev) : Reach chs v s → step chs v s ev = some s' → Reach chs v s'

end Fpki.SendAll
