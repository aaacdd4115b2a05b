/-!
# Model of the map updater: `pkg/mapserver/updater/updater.go:86-195,244-277`, its caller `pkg/mapserver/mapserver.go:363-384`, and the goroutines of the HTTP fetcher

Entries of a log are named by their index. A batch is the list of the indices of its certificates and that of the entries that were excluded as expired (the code has only
their number). Sizes are natural numbers (int64/uint64 in the code), signed tree heads are left out. The answers of the fetcher, the CT server and the DB are
chosen by the environment.
-/
namespace Fpki.Updater

/-- logfetcher.go:30-35 `result` without error: what `ReturnNextBatch` returns. -/
structure Batch where
  certs : List Nat
  expired : List Nat
deriving DecidableEq, Repr

/-- All entries of the batch. -/
def Batch.all (b : Batch) : List Nat := b.certs ++ b.expired

/-- logfetcher.go:30-35 `result`. -/
inductive Fetched where
  | err
  | batch (b : Batch)
deriving DecidableEq, Repr

/-- The database: per fetcher, the recorded size (certs.go:288-311, 0 if there is no row), and two sets that describe the history: the entries that
were part of a batch whose insertion succeeded, and those that were excluded as expired in such a batch. -/
structure DB where
  recorded : Nat → Nat
  stored : Nat → Nat → Bool
  excluded : Nat → Nat → Bool

/-- updater.go:25-39 `MapUpdater`, without the timestamps; `pending` is the `currentResult` of the current fetcher. -/
structure State where
  db : DB
  cur : Nat
  init : Bool
  orig : Nat
  last : Nat
  target : Nat
  pending : Option Fetched

/-- updater.go:106-112 `StartFetchingRemaining` -/
def startFetchingRemaining (s : State) : State := { s with cur := 0, init := false }

/-- Answers during `startNextFetcher`: an error in `Initialize` or of the DB, an error of `GetCurrentState`, or the size it returns. -/
inductive StartAnswer where
  | err
  | stateErr
  | ok (target : Nat)

/-- updater.go:244-277 `startNextFetcher` and 118-124: the state, and the first index and the index after the last of the call of `StartFetching`, if there is one. -/
def startNextFetcher (s : State) : StartAnswer → State × Option (Nat × Nat)
  | .err => (s, none)
  | .stateErr => ({ s with orig := s.db.recorded s.cur, last := s.db.recorded s.cur, target := 0 }, none)
  | .ok t => ({ s with orig := s.db.recorded s.cur, last := s.db.recorded s.cur, target := t, init := true }, some (s.db.recorded s.cur, t))

/-- updater.go:125-133, 116: the result of `NextBatch` of the fetcher: a result, or `none`, on which the updater turns to the next fetcher.
httplogfetcher.go:120-140: a result without error and without data counts as none. -/
def nextBatch (s : State) : Option Fetched → State
  | some .err => { s with pending := some .err }
  | some (.batch b) =>
    if b.all = [] then { s with cur := s.cur + 1, init := false, pending := none }
    else { s with pending := some (.batch b) }
  | none => { s with cur := s.cur + 1, init := false, pending := none }

/-- A batch of fetcher `f` has been inserted. -/
def DB.store (db : DB) (f : Nat) (b : Batch) : DB where
  recorded := db.recorded
  stored := fun f' i => db.stored f' i || (decide (f' = f) && decide (i ∈ b.certs))
  excluded := fun f' i => db.excluded f' i || (decide (f' = f) && decide (i ∈ b.expired))

/-- certs.go:302-311 `UpdateLastCTlogServerState` -/
def DB.record (db : DB) (f size : Nat) : DB := { db with recorded := fun f' => if f' = f then size else db.recorded f' }

/-- updater.go:140-192 `UpdateNextBatch`; `ins`, `rec`, `prog`: whether the insertion, the recording of the state and the query for the progress
succeed. The second component: whether it returns without error. -/
def updateNextBatch (s : State) (ins recd prog : Bool) : State × Bool :=
  match s.pending with
  | none => (s, true)
  | some .err => (s, false)
  | some (.batch b) =>
    if ins then
      let s' := { s with db := s.db.store s.cur b, last := s.last + b.certs.length + b.expired.length, pending := none }
      if s'.last = s'.target then
        if recd then ({ s' with db := s'.db.record s'.cur s'.target }, true) else (s', false)
      else (s', prog)
    else ({ s with pending := none }, false)

/-- updater.go:80-83: a new process, with the same DB. -/
def restart (s : State) : State := ⟨s.db, 0, false, 0, 0, 0, none⟩

/-- What can happen, in any order that the conditions of `exec` allow (mapserver.go:363-384 calls them in a particular order: it begins a new cycle after
any error). -/
inductive Ev where
  | cycle
  | start (a : StartAnswer)
  | next (r : Option Fetched)
  | update (ins recd prog : Bool)
  | crash

/-- One call, with `n` fetchers: updater.go:116 `currFetcher < len(Fetchers)`, 118 `!currFetcherInitialized`; the caller updates only after
`NextBatch` returned true (mapserver.go:369-377). -/
def exec (n : Nat) (s : State) : Ev → Option State
  | .cycle => some { startFetchingRemaining s with pending := none }
  | .start a => if s.cur < n ∧ s.init = false then some (startNextFetcher s a).1 else none
  | .next r => if s.cur < n ∧ s.init = true ∧ s.pending = none then some (nextBatch s r) else none
  | .update i r p => if s.pending = none then none else some (updateNextBatch s i r p).1
  | .crash => some (restart s)

/-! ## The goroutines of the HTTP fetcher -/

/-- Where a goroutine is in the loop of httplogfetcher.go:197-250: downloading a batch, or sending it on a channel (the channel is evaluated before the send
blocks), or it has returned. -/
inductive Phase where
  | down
  | send (ch : Nat) (r : Fetched)
  | ended
deriving DecidableEq

/-- A goroutine: the channel it will close, and `count` and `i` (httplogfetcher.go:186, 194, 197). -/
structure Gor where
  own : Nat
  count : Nat
  i : Nat
  phase : Phase
deriving DecidableEq

/-- The fields of `HttpLogFetcher` that the goroutines read, the channels ever made, and the goroutines ever started. `stop` is the index after the
last (the field is `end`). -/
structure Http where
  ch : Nat
  start : Nat
  stop : Nat
  stopping : Bool
  queue : Nat → List Fetched
  gors : List Gor

/-- httplogfetcher.go:107-113 `StartFetching`, 185-195: the goroutine's `count` (it is assumed that the goroutine begins at once). -/
def Http.startFetching (pb : Nat) (h : Http) (start stop : Nat) : Http :=
  { h with
    ch := h.ch + 1, start := start, stop := stop, stopping := false,
    gors := h.gors ++ [if start < stop then ⟨h.ch + 1, 1 + (stop - 1 - start) / pb, 0, .down⟩ else ⟨h.ch + 1, 0, 0, .ended⟩] }

/-- httplogfetcher.go:198-199: the range of the `i`-th batch, which reads the fields of the fetcher, as entries. -/
def block (pb start stop i : Nat) : List Nat := (List.range (min stop (start + i * pb + pb) - (start + i * pb))).map (fun j => start + i * pb + j)

/-- httplogfetcher.go:198-248: the download of a batch ends, with an error (`ok = false`), or with the entries; then `stopping` is read and reset. -/
def Http.downloaded (pb : Nat) (h : Http) (k : Nat) (ok : Bool) : Option Http :=
  match h.gors[k]? with
  | none => none
  | some g =>
    if g.phase = .down then
      if ok then
        if h.stopping then some { h with stopping := false, gors := h.gors.set k { g with phase := .ended } }
        else some { h with gors := h.gors.set k { g with phase := .send h.ch (.batch ⟨block pb h.start h.stop g.i, []⟩) } }
      else some { h with gors := h.gors.set k { g with phase := .send h.ch .err } }
    else none

/-- httplogfetcher.go:244-249: the channel, of capacity `preloadCount` (httplogfetcher.go:25), accepts the result; then the next iteration, if any. After an error
the goroutine returns. -/
def Http.sent (h : Http) (k : Nat) : Option Http :=
  match h.gors[k]? with
  | none => none
  | some g =>
    match g.phase with
    | .send c r =>
      if (h.queue c).length < 2 then
        some { h with
          queue := fun c' => if c' = c then h.queue c ++ [r] else h.queue c'
          gors := h.gors.set k { g with i := g.i + 1, phase := if r = .err ∨ g.count ≤ g.i + 1 then .ended else .down } }
      else none
    | _ => none

/-- httplogfetcher.go:115-117 `StopFetching` -/
def Http.stopFetching (h : Http) : Http := { h with stopping := true }

/-- An updater with HTTP fetchers. -/
structure Sys where
  s : State
  hs : Nat → Http

/-- Change one fetcher. -/
def Sys.setHttp (x : Sys) (s : State) (f : Nat) (h : Http) : Sys := ⟨s, fun f' => if f' = f then h else x.hs f'⟩

/-- What can happen in the process: the calls of the updater, where the results now come from the fetcher's channel, and the steps of the goroutines. -/
inductive SEv where
  | cycle
  | startErr (stateErr : Bool)
  | start (target : Nat)
  | recv
  | closed
  | cancelled
  | update (ins recd prog : Bool)
  | crash
  | downloaded (f k : Nat) (ok : Bool)
  | sent (f k : Nat)

/-- A fetcher as made by httplogfetcher.go:51-82 `NewHttpLogFetcher`. Channel 0 is the nil channel. -/
def newHttp : Http := ⟨0, 0, 0, false, fun _ => [], []⟩

/-- One step of the process. `recv`: the updater takes a result from the channel of the fetcher (httplogfetcher.go:125). `closed`: it finds it closed and empty, and stops
the fetcher (updater.go:130-132). `cancelled`: the context is done (httplogfetcher.go:123). -/
def Sys.exec (n pb : Nat) (x : Sys) : SEv → Option Sys
  | .cycle => (Updater.exec n x.s .cycle).map (fun s => { x with s := s })
  | .startErr b => (Updater.exec n x.s (.start (if b then .stateErr else .err))).map (fun s => { x with s := s })
  | .start t =>
    (Updater.exec n x.s (.start (.ok t))).map (fun s =>
      match (startNextFetcher x.s (.ok t)).2 with
      | some (a, b) => x.setHttp s x.s.cur ((x.hs x.s.cur).startFetching pb a b)
      | none => { x with s := s })
  | .recv =>
    match (x.hs x.s.cur).queue (x.hs x.s.cur).ch with
    | [] => none
    | r :: q =>
      (Updater.exec n x.s (.next (some r))).map (fun s =>
        x.setHttp s x.s.cur { x.hs x.s.cur with queue := fun c => if c = (x.hs x.s.cur).ch then q else (x.hs x.s.cur).queue c })
  | .closed =>
    if (x.hs x.s.cur).queue (x.hs x.s.cur).ch = [] ∧ (x.hs x.s.cur).gors.any (fun g => decide (g.own = (x.hs x.s.cur).ch ∧ g.phase = .ended)) then
      (Updater.exec n x.s (.next none)).map (fun s => x.setHttp s x.s.cur (x.hs x.s.cur).stopFetching)
    else none
  | .cancelled => (Updater.exec n x.s (.next (some .err))).map (fun s => { x with s := s })
  | .update i r p => (Updater.exec n x.s (.update i r p)).map (fun s => { x with s := s })
  | .crash => (Updater.exec n x.s .crash).map (fun s => ⟨s, fun _ => newHttp⟩)
  | .downloaded f k ok => ((x.hs f).downloaded pb k ok).map (fun h => x.setHttp x.s f h)
  | .sent f k => ((x.hs f).sent k).map (fun h => x.setHttp x.s f h)

/-- A sequence of steps. -/
def Sys.execAll (n pb : Nat) (x : Sys) : List SEv → Option Sys
  | [] => some x
  | e :: es => (x.exec n pb e).bind (fun x => x.execAll n pb es)

end Fpki.Updater
