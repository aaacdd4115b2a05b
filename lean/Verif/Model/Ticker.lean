/-!
# Model of `RunWhen`
`pkg/util/ticker.go`. Time is a number of nanoseconds. The function takes a given time in each of its runs; starting it takes none. Go's `select` takes any of the
cases that are ready: which one is given. The channel of a ticker holds one tick; further ticks are dropped until it is received.
-/
namespace Fpki.Ticker

/-- The arguments of `RunWhen`, the time of the call, and the time at which the context is cancelled. -/
structure Cfg where
  now : Nat
  «when» : Nat
  repeat_ : Nat
  cancel : Option Nat

/-- The runs of the function: run `i` takes `dur i`; at the end of run `i`, if both cases of the `select` are ready, the ticker is taken if `pick i`. -/
structure World where
  dur : Nat → Nat
  pick : Nat → Bool

/-- ticker.go:21-23: the end of the timer, at once if it is negative. The context is not looked at. -/
def Cfg.first (c : Cfg) : Nat := max c.now c.«when»

/-- time.NewTicker (ticker.go:24), created at `t0` with period `r`: the first tick after `t`. -/
def nextTick (t0 r t : Nat) : Nat := t0 + ((t - t0) / r + 1) * r

/-- ticker.go:27-33: the `select` after a run from `s` to `e`: when the next run starts; `none` if the goroutine ends. There is a tick in the channel if one came
since the last one was received, at `s`. -/
def select (c : Cfg) (pick : Bool) (s e : Nat) : Option Nat :=
  let tick := nextTick c.first c.repeat_ s
  -- the case `<-ticker.C` is ready at
  let ready := max tick e
  match c.cancel with
  | none => some ready
  | some d =>
    -- the case `<-ctx.Done()` is ready at
    let done := max d e
    if ready < done then some ready else if done < ready then none else if pick then some ready else none

/-- ticker.go:25-34: the start of run `i` of the function, if there is one. -/
def startAt (c : Cfg) (w : World) : Nat → Option Nat
  | 0 => some c.first
  | i + 1 => (startAt c w i).bind fun s => select c (w.pick i) s (s + w.dur i)

/-- ticker.go:13-36 `RunWhen`: the starts of the runs; `none` if the process panics, at `first`: `NewTicker` takes no period of 0. -/
def runWhen (c : Cfg) (w : World) : Option (Nat → Option Nat) := if c.repeat_ = 0 then none else some (startAt c w)

end Fpki.Ticker
