/-!
# Model of `StartFetching`, `StopFetching` and the goroutine `fetch` (`pkg/mapserver/logfetcher/httplogfetcher.go`)

Every access to the fields `stopping`, `start`, `end` and `chanResults`, which the goroutines and the caller share without a lock, is a step of its own. Of the entries only their
indices are kept: a result `ok first n` has the `n` entries from index `first` on. An answer of the CT server is the number of entries in it, at most as many as were asked for (a server that sends more:
C26). Indices are natural numbers, as in `Fetch`.
-/
namespace Fpki.StopFetch

/-- httplogfetcher.go:39-40: `processBatchSize`, `serverBatchSize`. -/
structure Params where
  pb : Nat
  sb : Nat

/-- logfetcher.go:30-35 `result` -/
inductive Res where
  | ok (first n : Nat)
  | err
deriving DecidableEq, Repr

/-- A channel of results: what was ever sent into it, how many of these were received, whether it is closed. -/
structure Chan where
  out : List Res
  taken : Nat
  closed : Bool
deriving DecidableEq, Repr

/-- Where a goroutine is: httplogfetcher.go:186-192 `start`; 195 `iter`; 198 with 268-270 `enter`; 320-331 `chunk` (batch `i`, call `k` of `getRawEntries`, offset); 278-286, 295-300 `after` (`n` is what
`getRawEntries` returned); 205-207 `check` (`v` is what `getRawEntriesInBatches` returned); 245-248 `send`, which reads `f.chanResults`, and `push`, which is the sending into that channel; 199-203 and
the like `sendErr`, `pushErr`; the deferred `close` of 186 `closing`. -/
inductive Pc where
  | start
  | iter (i : Nat)
  | enter (i : Nat)
  | chunk (i k off : Nat)
  | after (i k n : Nat)
  | check (i v : Nat)
  | send (i v : Nat)
  | push (i v ch : Nat)
  | sendErr
  | pushErr (ch : Nat)
  | closing
  | ended
  | panicked
deriving DecidableEq, Repr

/-- A goroutine: `count` (193), the local `start` and `end` (196-197), the channel that it will close (186: evaluated when the goroutine starts to run). -/
structure Gor where
  pc : Pc
  chan : Nat
  count : Nat
  s : Nat
  e : Nat
deriving DecidableEq, Repr

/-- httplogfetcher.go:34-49 `HttpLogFetcher`: the fields `start`, `end`, `stopping`, `chanResults`; all channels and goroutines ever made. -/
structure Fetcher where
  start : Nat
  stop : Nat
  stopping : Bool
  cur : Nat
  chans : List Chan
  gors : List Gor
deriving DecidableEq, Repr

/-- A fetcher that was not used. -/
def fresh : Fetcher := ⟨0, 0, false, 0, [], []⟩

/-- httplogfetcher.go:25 `preloadCount` -/
def preload : Nat := 2

/-- How many entries a call of `getRawEntriesInBatches` is to fetch. -/
def Gor.total (g : Gor) : Nat := g.e + 1 - g.s

/-- httplogfetcher.go:266 -/
def Gor.full (P : Params) (g : Gor) : Nat := g.total / P.sb

/-- httplogfetcher.go:272-276, 289-293: how many entries the `k`th call of `getRawEntries` is to fetch. -/
def Gor.size (P : Params) (g : Gor) (k : Nat) : Nat := if k < g.full P then P.sb else g.total - g.full P * P.sb

/-- httplogfetcher.go:272, 289-291, 303: the next call of `getRawEntries`, or the result. -/
def Gor.next (P : Params) (g : Gor) (i k : Nat) : Pc :=
  if k < g.full P then .chunk i k 0
  else if k = g.full P ∧ g.e ≥ g.full P * P.sb + g.s then .chunk i k 0
  else .check i g.total

/-- httplogfetcher.go:281-283, 297-299: what `getRawEntriesInBatches` returns when it is stopped (297-299: an absolute index is added). -/
def Gor.stopped (P : Params) (g : Gor) (k n : Nat) : Nat := if k < g.full P then k * P.sb + n else g.full P * P.sb + g.s + n

/-- What the environment contributes to a step: the answer of the CT server (`none`: an error), whether all entries can be parsed. -/
structure Env where
  answer : Option Nat
  parses : Bool
deriving DecidableEq, Repr

/-- Sending into a channel: `none` if it blocks. -/
def Chan.send (c : Chan) (r : Res) : Option (Option Chan) :=
  if c.closed then some none
  else if c.out.length - c.taken < preload then some (some { c with out := c.out ++ [r] })
  else none

/-- One step of goroutine `j`. `none`: it cannot make one (blocked, or ended). -/
def stepGor (P : Params) (F : Fetcher) (j : Nat) (g : Gor) (env : Env) : Option Fetcher :=
  let put (F : Fetcher) (g : Gor) : Fetcher := { F with gors := F.gors.set j g }
  match g.pc with
  | .start =>
    if F.start > F.stop then some (put F { g with chan := F.cur, pc := .closing })
    else some (put F { g with chan := F.cur, count := 1 + (F.stop - F.start) / P.pb, pc := .iter 0 })
  | .iter i =>
    if i < g.count then
      let s := F.start + i * P.pb
      let e := min F.stop (s + P.pb - 1)
      if e ≥ s then some (put F { g with s := s, e := e, pc := .enter i }) else some (put F { g with pc := .panicked })
    else some (put F { g with pc := .closing })
  | .enter i => if F.stopping then some (put F { g with pc := .check i 0 }) else some (put F { g with pc := g.next P i 0 })
  | .chunk i k off =>
    if off < g.size P k then
      if F.stopping then some (put F { g with pc := .after i k 0 })
      else
        match env.answer with
        | none => some (put F { g with pc := .sendErr })
        | some l => if l ≤ g.size P k - off then some (put F { g with pc := .chunk i k (off + l) }) else none
    else some (put F { g with pc := .after i k (g.size P k) })
  | .after i k n =>
    if F.stopping then some (put F { g with pc := .check i (g.stopped P k n) })
    else if n = g.size P k then some (put F { g with pc := g.next P i (k + 1) })
    else some (put F { g with pc := .panicked })
  | .check i v =>
    if F.stopping then some (put { F with stopping := false } { g with pc := .closing })
    else if v > P.pb then some (put F { g with pc := .panicked })
    else if env.parses then some (put F { g with pc := .send i v })
    else some (put F { g with pc := .sendErr })
  | .send i v => some (put F { g with pc := .push i v F.cur })
  | .push i v ch =>
    match F.chans[ch]? with
    | none => none
    | some c =>
      match c.send (.ok g.s v) with
      | none => none
      | some none => some (put F { g with pc := .panicked })
      | some (some c') => some (put { F with chans := F.chans.set ch c' } { g with pc := .iter (i + 1) })
  | .sendErr => some (put F { g with pc := .pushErr F.cur })
  | .pushErr ch =>
    match F.chans[ch]? with
    | none => none
    | some c =>
      match c.send .err with
      | none => none
      | some none => some (put F { g with pc := .panicked })
      | some (some c') => some (put { F with chans := F.chans.set ch c' } { g with pc := .closing })
  | .closing =>
    match F.chans[g.chan]? with
    | none => none
    | some c => if c.closed then some (put F { g with pc := .panicked }) else some (put { F with chans := F.chans.set g.chan { c with closed := true } } { g with pc := .ended })
  | .ended => none
  | .panicked => none

/-- What can happen: the caller calls `StartFetching`, `StopFetching`, receives a result (`NextBatch`), or goroutine `j` makes a step. -/
inductive Ev where
  | startFetching (a b : Nat)
  | stopFetching
  | take
  | go (j : Nat) (env : Env)
deriving DecidableEq, Repr

/-- httplogfetcher.go:107-113 `StartFetching`, 115-117 `StopFetching`, 121-139 `NextBatch`, 185-251 `fetch`. -/
def exec (P : Params) (F : Fetcher) : Ev → Option Fetcher
  | .startFetching a b => some ⟨a, b, false, F.chans.length, F.chans ++ [⟨[], 0, false⟩], F.gors ++ [⟨.start, 0, 0, 0, 0⟩]⟩
  | .stopFetching => some { F with stopping := true }
  | .take =>
    match F.chans[F.cur]? with
    | some c => if c.taken < c.out.length then some { F with chans := F.chans.set F.cur { c with taken := c.taken + 1 } } else none
    | none => none
  | .go j env =>
    match F.gors[j]? with
    | some g => stepGor P F j g env
    | none => none

/-- A run. -/
def run (P : Params) (F : Fetcher) : List Ev → Option Fetcher
  | [] => some F
  | e :: es => (exec P F e).bind fun F => run P F es

end Fpki.StopFetch
