import Verif.Model.Ingest

/-!
# Model of the `recordctsize` job of `ingest` and of the place where the map server finds its result

`cmd/ingest/run.go:96-119, 274-303`, `cmd/ingest/main.go:205-210`, `pkg/db/mysql/certs.go:286-311`, `pkg/mapserver/updater/updater.go:255-275`, with `filepath.Clean` and `filepath.Base` (Unix).
`net/url` is a parameter: reading a text gives the scheme, the host and the text it is printed as. SHA256 is a parameter.
-/
namespace Fpki.CtSize

open Fpki.Ingest Fpki.Journal

/-- The parts of a path between slashes. -/
def splitSlash : Str → List Str
  | [] => [[]]
  | c :: s =>
    if c = '/' then [] :: splitSlash s
    else
      match splitSlash s with
      | [] => [[c]]
      | x :: xs => (c :: x) :: xs

/-- The parts with slashes between them. -/
def joinSlash : List Str → Str
  | [] => []
  | [x] => x
  | x :: xs => x ++ '/' :: joinSlash xs

/-- Does the path begin with a slash? -/
def rooted (p : Str) : Bool := p.head? == some '/'

/-- path/filepath `Clean` on the parts; `acc` is what was kept so far, the last first. -/
def cleanParts (root : Bool) : List Str → List Str → List Str
  | acc, [] => acc.reverse
  | acc, c :: cs =>
    if c = [] ∨ c = ['.'] then cleanParts root acc cs
    else if c = ['.', '.'] then
      match acc with
      | [] => if root then cleanParts root [] cs else cleanParts root [['.', '.']] cs
      | top :: rest => if top = ['.', '.'] then cleanParts root (['.', '.'] :: top :: rest) cs else cleanParts root rest cs
    else cleanParts root (c :: acc) cs

/-- path/filepath `Clean` (Unix), as called at run.go:278, 296 and journal.go:662 -/
def clean (p : Str) : Str :=
  let body := joinSlash (cleanParts (rooted p) [] (splitSlash p))
  if rooted p then '/' :: body else if body = [] then ['.'] else body

/-- run.go:296, journal.go:662: `filepath.Base(filepath.Clean(dir))` -/
def dirKey (dir : Str) : Str := pathBase (clean dir)

/-- run.go:278: `strings.ReplaceAll(…, "_", "/")` -/
def candidate (dir : Str) : Str := (dirKey dir).map (fun c => if c = '_' then '/' else c)

/-- What `url.Parse` and `String` make of a text. -/
structure Url where
  scheme : Str
  host : Str
  text : Str
deriving DecidableEq, Repr

/-- run.go:274-287 `deriveCTLogURLFromIngestDir`; `none` is an error -/
def deriveUrl (parse : Str → Option Url) (dir : Str) : Option Str :=
  if dir = [] then none
  else
    match parse (candidate dir) with
    | none => none
    | some u => if u.scheme = [] ∨ u.host = [] then none else some u.text

/-- int64 arithmetic: the value modulo 2^64, between -2^63 and 2^63-1. -/
def wrap64 (x : Int) : Int := (x + 2 ^ 63) % 2 ^ 64 - 2 ^ 63

/-- run.go:289-303 `completedCTLogSize` for the last job -/
def ctSize (jobs : List Job) (dir : Str) : Option Int :=
  match jobs.getLast? with
  | none => none
  | some j =>
    match lookup j.completed (dirKey dir) with
    | [] => none
    | i :: _ => some (wrap64 (wrap64 i.stop + 1))

/-- The table `ctlog_server_last_status` by `url_hash`. -/
abbrev Table := Str → Option (Int × Option Str)

/-- certs.go:288-298 `LastCTlogServerState` -/
def lastState (H : Str → Str) (t : Table) (url : Str) : Int × Option Str := (t (H url)).getD (0, none)

/-- certs.go:302-311 `UpdateLastCTlogServerState`, if the DB does not fail: REPLACE INTO -/
def updateState (H : Str → Str) (t : Table) (url : Str) (size : Int) (sth : Option Str) : Table := fun h => if h = H url then some (size, sth) else t h

/-- run.go:96-119 with main.go:205-210: the table afterwards, the size given to `CommitCTLogSize`, if it is called, and whether nil is returned. -/
def recordSize (H : Str → Str) (parse : Str → Option Url) (jobs : List Job) (t : Table) (dir : Str) (ctxOk dbOk writeOk : Bool) : Table × Option Int × Bool :=
  if !ctxOk then (t, none, false)
  else
    match deriveUrl parse dir with
    | none => (t, none, false)
    | some url =>
      match ctSize jobs dir with
      | none => (t, none, false)
      | some n => if !dbOk then (t, none, false) else (updateState H t url n none, some n, writeOk)

/-- updater.go:255-275, the first index that the map server's fetcher for this URL is told to fetch. -/
def firstIndex (H : Str → Str) (t : Table) (url : Str) : Int := (lastState H t url).1

end Fpki.CtSize
