import Verif.Model.Journal

/-!
# Model of `cmd/ingest/journal/journal.go` (journal file) and `cmd/ingest/run.go`

Strings are lists of characters.  The disk holds the journal's list of jobs (or no file).
Time stamps, working directory and command line of a job are not modelled.
Every observable effect of a run is an event; a crash is a prefix of the event list.
-/
namespace Fpki.Ingest
open Fpki.Journal

abbrev Str := List Char

/-! ## File names -/

/-- `\d` of RE2 (ASCII digits), journal.go:137. -/
def isDig (c : Char) : Bool := decide (48 ≤ c.toNat) && decide (c.toNat ≤ 57)

/-- Value of a digit string (`strconv.ParseUint(_, 10, 64)` before the range check). -/
def digitsVal (s : Str) : Nat := s.foldl (fun a c => a * 10 + (c.toNat - 48)) 0

/-- `strconv.ParseUint(s, 10, 64)` on a string of digits: error on overflow. -/
def parseUint (s : Str) : Option Nat := if digitsVal s < W then some (digitsVal s) else none

/-- journal.go:680-698 `parseIntervalString` (regexp `^(\d+)-(\d+)$` of line 137 unfolded). -/
def parseIntervalString (s : Str) : Option Interval :=
  match s.dropWhile isDig with
  | '-' :: b =>
    if (s.takeWhile isDig).isEmpty || b.isEmpty || !b.all isDig then none
    else
      match parseUint (s.takeWhile isDig), parseUint b with
      | some x, some y => if x > y then none else some ⟨x, y⟩
      | _, _ => none
  | _ => none

/-- `%d` of a `uint`. -/
def showNat (n : Nat) : Str :=
  if n < 10 then [Char.ofNat (48 + n)] else showNat (n / 10) ++ [Char.ofNat (48 + n % 10)]

/-- journal.go:483-485 `Interval.String`. -/
def showInterval (i : Interval) : Str := showNat i.start ++ '-' :: showNat i.stop

/-- `filepath.Base` (Unix): strip trailing slashes, keep what follows the last slash. -/
def pathBase (p : Str) : Str :=
  if p.isEmpty then ['.']
  else
    let q := (p.reverse.dropWhile (· == '/')).takeWhile (· != '/')
    if q.isEmpty then ['/'] else q.reverse

/-- `filename[:len(filename)-len(ext)]` when `filepath.Ext` is `.gz` or `.csv`
(journal.go:668-671). -/
def stripExt (f : Str) : Str :=
  let r := f.reverse
  match r.dropWhile (· != '.') with
  | '.' :: body =>
    let ext := (r.takeWhile (· != '.')).reverse
    if ext = ['g', 'z'] ∨ ext = ['c', 's', 'v'] then body.reverse else f
  | _ => f

/-- journal.go:667-677 `parseFileInterval`. -/
def parseFileInterval (f : Str) : Option Interval := parseIntervalString (stripExt (pathBase f))

/-! ## Journal -/

/-- `CompletedIndices` (journal.go:61-63), a finite map from directory key to intervals. -/
abbrev Completed := List (Str × List Interval)

/-- Map lookup (`[]` and absent are not distinguished: journal.go:566-569, 628-631 treat both the
same way). -/
def lookup (c : Completed) (k : Str) : List Interval := ((c.find? (·.1 == k)).map (·.2)).getD []

/-- Map store `completed[k] = l`. -/
def store (c : Completed) (k : Str) (l : List Interval) : Completed :=
  (k, l) :: c.filter (·.1 != k)

/-- journal.go:565-571 `addCompletedInterval`. -/
def addCompleted (c : Completed) (k : Str) (x : Interval) : Completed :=
  store c k (appendInterval (lookup c k) x)

/-- journal.go:46-58 `Job`. -/
structure Job where
  coalesced : Bool
  updatedSMT : Bool
  ctSize : Nat
  completed : Completed
deriving Repr, DecidableEq, Inhabited

/-- journal.go:421-447 `latest…` and 283-288 of `appendJob`: the new job inherits the state of the
last one. -/
def newJob (jobs : List Job) : Job :=
  match jobs.getLast? with
  | some j => j
  | none => ⟨false, false, 0, []⟩

/-- journal.go:519-544 `normalizeCompletedIndices` (empty keys and inverted intervals are
errors). -/
def normalizeCompleted : Completed → Option Completed
  | [] => some []
  | (k, l) :: rest =>
    if k.isEmpty then none
    else match normalizeList [] l, normalizeCompleted rest with
      | some l', some r => some ((k, l') :: r)
      | _, _ => none

/-- journal.go:383-393 `normalize`. -/
def normalizeJobs : List Job → Option (List Job)
  | [] => some []
  | j :: js => match normalizeCompleted j.completed, normalizeJobs js with
    | some c, some r => some ({ j with completed := c } :: r)
    | _, _ => none

/-- Disk content: no journal file, or the jobs stored in it. -/
abbrev Disk := Option (List Job)

/-- journal.go:75-108 `NewJournal`: jobs in memory after loading and appending the new job. -/
def loadJobs : Disk → Option (List Job)
  | none => some [newJob []]
  | some jobs => match normalizeJobs jobs with
    | some js => some (js ++ [newJob js])
    | none => none

/-- Replace the current (last) job. -/
def setLast (jobs : List Job) (j : Job) : List Job := jobs.dropLast ++ [j]

/-- The loop of journal.go:156-162: adds files until one does not parse; returns the indices and
whether all files parsed. -/
def addFiles (dirKey : Str) : Completed → List Str → Completed × Bool
  | c, [] => (c, true)
  | c, f :: fs => match parseFileInterval f with
    | none => (c, false)
    | some x => addFiles dirKey (addCompleted c dirKey x) fs

/-- journal.go:190-219 `PendingFiles` on a listing. -/
def pendingFiles (dirKey : Str) (c : Completed) : List Str → Option (List Str)
  | [] => some []
  | f :: fs => match parseFileInterval f, pendingFiles dirKey c fs with
    | some x, some r => if containsInterval (lookup c dirKey) x then some r else some (f :: r)
    | _, _ => none

/-! ## Runs -/

/-- journal.go:113-135 `NewJobConfiguration`: the accepted strategies. -/
inductive Strategy where
  | onlyIngest | full | skipIngest | onlySmt | recordCT
deriving Repr, DecidableEq

def Strategy.ingest : Strategy → Bool
  | .onlyIngest | .full => true
  | _ => false
def Strategy.coalesce : Strategy → Bool
  | .full | .skipIngest => true
  | _ => false
def Strategy.smt : Strategy → Bool
  | .full | .skipIngest | .onlySmt => true
  | _ => false

/-- Observable effects of a run, in order. -/
inductive Ev where
  /-- `RunBatch` succeeded on these files of this directory (run.go:167). -/
  | batchOk (dir : Str) (files : List Str)
  /-- `Coalesce` succeeded. -/
  | coalesceOk
  /-- `UpdateSMT` succeeded. -/
  | smtOk
  /-- `RecordCTSize` wrote this size to the DB (run.go:111). -/
  | recordSize (dir : Str) (n : Nat)
  /-- the journal file was replaced (atomic rename, journal.go:362). -/
  | write (jobs : List Job)
deriving Repr, DecidableEq

/-- Everything the environment decides in one run: the listing, and which external calls
succeed (indexed by batch; index 0 also for the runs that do not ingest). -/
structure Env where
  strategy : Strategy
  dir : Str
  fileBatch : Nat
  listing : List Str
  firstWriteOk : Bool
  ctxOk : Nat → Bool
  batchOk : Nat → Bool
  coalesceOk : Nat → Bool
  smtOk : Nat → Bool
  writeOk : Nat → Bool
  closeOk : Bool

/-- An optional event. -/
def evIf (b : Bool) (e : Ev) : List Ev := if b then [e] else []

/-- journal.go:143-166 `CommitProgress`: memory afterwards, whether it returned nil, and the write
event if the file was replaced. -/
def commitProgress (key : Str) (jobs : List Job) (files : List Str) (coalesced smt writeOk : Bool) :
    List Job × Bool × List Ev :=
  let job := newJob jobs
  let (c, ok) := addFiles key job.completed files
  if !ok then (setLast jobs { job with completed := c }, false, [])
  else
    let jobs' := setLast jobs { job with completed := c, coalesced := coalesced || smt, updatedSMT := smt }
    (jobs', writeOk, evIf writeOk (.write jobs'))

/-- run.go:166-183 (the closure) and run.go:233-247 (loop over batches), batch number `i`.
`batches` are the slices `allFilenames[s:e]`. Returns the events and the memory. -/
def runBatches (e : Env) (key : Str) (i : Nat) (jobs : List Job) : List (List Str) → List Ev × List Job
  | [] => ([], jobs)
  | files :: rest =>
    if !e.ctxOk i then ([], jobs)
    else if !e.batchOk i then ([], jobs)
    else
      let ev0 := [Ev.batchOk e.dir files]
      if e.strategy.coalesce && !e.coalesceOk i then (ev0, jobs)
      else
        let ev1 := ev0 ++ evIf e.strategy.coalesce .coalesceOk
        if e.strategy.smt && !e.smtOk i then (ev1, jobs)
        else
          let ev2 := ev1 ++ evIf e.strategy.smt .smtOk
          let (jobs', ok, w) := commitProgress key jobs files e.strategy.coalesce e.strategy.smt (e.writeOk i)
          if !ok then (ev2 ++ w, jobs')
          else
            let (evs, jobs'') := runBatches e key (i + 1) jobs' rest
            (ev2 ++ w ++ evs, jobs'')

/-- Consecutive slices of at most `n` elements (run.go:233-244). -/
def chunks (n : Nat) (l : List α) : List (List α) :=
  match l with
  | [] => []
  | x :: xs => if n = 0 then [x :: xs] else (x :: xs).take n :: chunks n ((x :: xs).drop n)
termination_by l.length
decreasing_by simp; omega

/-- run.go:226-230: the effective batch size (a negative `FileBatch` behaves like 0). -/
def batchSize (fileBatch n : Nat) : Nat := if fileBatch = 0 then n else min fileBatch n

/-- run.go:289-303 `completedCTLogSize` (before the conversion to int64). -/
def completedCTLogSize (l : List Interval) : Option Nat :=
  match l with
  | [] => none
  | i :: _ => some (i.stop + 1)

/-- run.go:96-119: the `recordctsize` branch (deriving the URL from the directory name is in
`Verif.Model.CtSize`). `e.smtOk 0` decides whether `RecordCTSize` succeeds. -/
def runRecord (e : Env) (key : Str) (jobs : List Job) : List Ev × List Job :=
  if !e.ctxOk 0 then ([], jobs)
  else match completedCTLogSize (lookup (newJob jobs).completed key) with
    | none => ([], jobs)
    | some n =>
      if !e.smtOk 0 then ([], jobs)
      else
        let jobs' := setLast jobs { newJob jobs with ctSize := n }
        ([.recordSize e.dir n] ++ evIf (e.writeOk 0) (.write jobs'), jobs')

/-- run.go:125-132: coalescing phase of a run without ingestion; third component: go on. -/
def phaseCoalesce (e : Env) (key : Str) (jobs : List Job) : List Ev × List Job × Bool :=
  if e.strategy.coalesce then
    if !e.coalesceOk 0 then ([], jobs, false)
    else
      let (jobs', ok, w) := commitProgress key jobs [] true false (e.writeOk 0)
      ([Ev.coalesceOk] ++ w, jobs', ok)
  else ([], jobs, true)

/-- run.go:133-143: SMT phase of a run without ingestion. -/
def phaseSmt (e : Env) (key : Str) (jobs : List Job) : List Ev × List Job :=
  if !e.ctxOk 1 then ([], jobs)
  else if !e.strategy.smt || !e.smtOk 0 then ([], jobs)
  else
    let (jobs', _, w) := commitProgress key jobs [] e.strategy.coalesce true (e.writeOk 1)
    ([Ev.smtOk] ++ w, jobs')

/-- run.go:121-145: a run that does not ingest files. -/
def runNoIngest (e : Env) (key : Str) (jobs : List Job) : List Ev × List Job :=
  if !e.ctxOk 0 then ([], jobs)
  else
    let r := phaseCoalesce e key jobs
    if !r.2.2 then (r.1, r.2.1)
    else
      let q := phaseSmt e key r.2.1
      (r.1 ++ q.1, q.2)

/-- run.go:147-184 and 187-250 `ingestFilesInBatches`: a run that ingests files. -/
def runWithIngest (e : Env) (key : Str) (jobs : List Job) : List Ev × List Job :=
  match pendingFiles key (newJob jobs).completed e.listing with
  | none => ([], jobs)
  | some files =>
    runBatches e key 0 jobs (chunks (batchSize e.fileBatch files.length) files)

/-- run.go:66-185 `runIngest` after the journal was loaded: events and memory. The key is
`filepath.Base(filepath.Clean(dir))` (journal.go:662); `e.dir` stands for the cleaned path. -/
def runBody (e : Env) (jobs : List Job) : List Ev × List Job :=
  let key := pathBase e.dir
  if e.strategy = .recordCT then runRecord e key jobs
  else if !e.strategy.ingest then runNoIngest e key jobs
  else runWithIngest e key jobs

/-- All events of one complete run of the ingest command started on this disk; the deferred
`Close` (journal.go:305-317, run.go:83) writes once more. -/
def runTrace (e : Env) (d : Disk) : List Ev :=
  match loadJobs d with
  | none => []
  | some jobs =>
    if !e.firstWriteOk then []
    else
      let (evs, jobs') := runBody e jobs
      Ev.write jobs :: evs ++ evIf e.closeOk (.write jobs')

/-- Disk after a list of events. -/
def applyEvs (d : Disk) : List Ev → Disk
  | [] => d
  | .write jobs :: es => applyEvs (some jobs) es
  | _ :: es => applyEvs d es

/-- Histories: any sequence of runs, each stopped (crash or end) after any prefix of its events. -/
inductive History : List Ev → Disk → Prop where
  | init : History [] none
  | run (h : List Ev) (d : Disk) (e : Env) (pre : List Ev) :
      History h d → pre <+: runTrace e d → History (h ++ pre) (applyEvs d pre)

end Fpki.Ingest
