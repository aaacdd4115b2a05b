import Verif.Model.JsonIndent
import Verif.Model.Reflect
import Verif.Model.JournalMem
/-!
The bytes of the journal file: `cmd/ingest/journal/journal.go`, the types and what `write` and `read` do. The mutex and the fields `JournalFile` and `IngestDir` are not part of the text (journal.go:23-27).
-/
namespace Fpki.JournalText

open Fpki.Json Fpki.Reflect
open Fpki.Domain (asc)
open Fpki.Journal (Interval normalizeList)
open Fpki.Ingest (Str showInterval parseIntervalString)
open Fpki.JournalMem (ByteCompleted normalizeBytes decode encode)

/-- journal.go:33-42 `JobConfiguration` -/
structure Conf where
  ingestFiles : Bool
  coalesce : Bool
  updateSMT : Bool
  recordCTSize : Bool
  fileBatch : Int
  plainCSVs : Bool
deriving DecidableEq

/-- journal.go:51-61 `Job`; `CompletedIndices` (journal.go:65) is the list of its entries in the order of the keys, a nil map is an empty one (journal.go:454-456, 488, 520-522). -/
structure Job where
  cwd : Bytes
  cmd : Option (List Bytes)
  conf : Conf
  startTime : Bytes
  endTime : Bytes
  coalesced : Bool
  updatedSMT : Bool
  ctSize : Int
  completed : ByteCompleted
deriving DecidableEq

/-! ## As reflection shows them -/

/-- journal.go:33-42 -/
def confShape : Shape :=
  .struct [(asc "IngestFiles", false, .bool), (asc "Coalesce", false, .bool), (asc "UpdateSMT", false, .bool), (asc "RecordCTSize", false, .bool),
    (asc "FileBatch", false, .int), (asc "IncludePlainCSVs", false, .bool)]

/-- journal.go:51-61; journal.go:460-480: `CompletedIndices` is written and read as a `map[string][]string` (simplification: a text with this member twice in one job is read as if the entries were together). -/
def jobShape : Shape :=
  .struct [(asc "Cwd", false, .str), (asc "Cmd", false, .slice .str), (asc "JobConfiguration", false, confShape), (asc "StartTime", false, .str), (asc "EndTime", false, .str),
    (asc "Coalesced", false, .bool), (asc "UpdatedSMT", false, .bool), (asc "RecordedCTLogSize", false, .int), (asc "CompletedIndices", false, .map (.slice .str))]

/-- journal.go:22-29 `Journal` -/
def journalShape : Shape := .struct [(asc "Jobs", false, .slice jobShape)]

/-- ASCII text as bytes. -/
def toBytes (s : Str) : Bytes := s.map fun c => UInt8.ofNat c.toNat

/-- Bytes as text, one character for each byte: journal.go:137 matches ASCII digits and a hyphen only. -/
def ofBytes (b : Bytes) : Str := b.map fun x => Char.ofNat x.toNat

/-- journal.go:490-494 -/
def intervalsV (l : List Interval) : V := .slice (l.map fun i => .str (toBytes (showInterval i)))

/-- journal.go:487-497 `encodeCompletedIndices` -/
def completedV (c : ByteCompleted) : V := .map (c.map fun p => (p.1, intervalsV p.2))

/-- journal.go:53 -/
def cmdV : Option (List Bytes) → V
  | none => .nilSlice
  | some l => .slice (l.map .str)

/-- journal.go:33-42 -/
def confV (c : Conf) : V := .struct [.bool c.ingestFiles, .bool c.coalesce, .bool c.updateSMT, .bool c.recordCTSize, .int c.fileBatch, .bool c.plainCSVs]

/-- journal.go:51-61 -/
def jobV (j : Job) : V :=
  .struct [.str j.cwd, cmdV j.cmd, confV j.conf, .str j.startTime, .str j.endTime, .bool j.coalesced, .bool j.updatedSMT, .int j.ctSize, completedV j.completed]

/-- journal.go:320-332 `write`, the bytes for the jobs; `none` is an error. -/
def write (js : List Job) : Option Bytes := (encJ journalShape (.struct [.slice (js.map jobV)])).map (renderIndent [0x20, 0x20])

/-- The text of a string. -/
def strOf : V → Bytes
  | .str s => s
  | _ => []

/-- A boolean. -/
def boolOf : V → Bool
  | .bool b => b
  | _ => false

/-- A number. -/
def intOf : V → Int
  | .int i => i
  | _ => 0

/-- journal.go:53 -/
def cmdOf : V → Option (List Bytes)
  | .slice l => some (l.map strOf)
  | _ => none

/-- journal.go:33-42 -/
def confOf : V → Conf
  | .struct [a, b, c, d, e, f] => ⟨boolOf a, boolOf b, boolOf c, boolOf d, intOf e, boolOf f⟩
  | _ => ⟨false, false, false, false, 0, false⟩

/-- journal.go:469: the `map[string][]string`. -/
def rawOf (v : V) : List (Bytes × List Str) := (entriesOf v).map fun p => (p.1, (elemsOf p.2).map fun x => ofBytes (strOf x))

/-- journal.go:468-480 `UnmarshalJSON`, journal.go:384-393 `normalize`, for one job; `none` is an error. -/
def jobOf : V → Option Job
  | .struct [cwd, cmd, conf, start, stop, co, smt, ct, ci] =>
    match (decode (rawOf ci)).bind normalizeBytes with
    | none => none
    | some c => some ⟨strOf cwd, cmdOf cmd, confOf conf, strOf start, strOf stop, boolOf co, boolOf smt, intOf ct, c⟩
  | _ => none

/-- journal.go:384-393: every job, or an error. -/
def jobsOf : List V → Option (List Job)
  | [] => some []
  | v :: l =>
    match jobOf v, jobsOf l with
    | some j, some js => some (j :: js)
    | _, _ => none

/-- journal.go:396-411 `read`: the jobs in the text; `none` is an error. -/
def read (s : Bytes) : Option (List Job) :=
  match parse s with
  | none => none
  | some j =>
    match inflate journalShape j with
    | none => none
    | some v => jobsOf (elemsOf ((fieldsOf v).headD .nilSlice))

end Fpki.JournalText
