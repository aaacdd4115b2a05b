import Verif.Model.ListFiles

/-!
# Model of the listing of the ingest directory, with both kinds of files

`cmd/ingest/journal/list_files.go`, `pkg/util/csv_files.go` (names and sorting),
`cmd/ingest/journal/journal.go` (`listFiles`, `PendingFiles`), `cmd/ingest/run.go` (the estimates
and the batches).

A directory is the list of its entries in the order of `os.ReadDir` (`Entries`).  `rd d` tells
whether the directory `d` can be read.  `srt` stands for the sorting algorithm of
`slices.SortFunc`, of which only the contract is used (`Sorter`).  Glob metacharacters in directory
names are not modelled; names are texts of characters.  The directory of the journal is not empty
and does not end with a slash.
-/
namespace Fpki.Pending
open Fpki.Journal Fpki.Ingest Fpki.ListFiles

/-- `strconv.Atoi` of a text of digits (64 bit): error at `2^63` and above. -/
def atoi (s : Str) : Option Nat := if digitsVal s < 2 ^ 63 then some (digitsVal s) else none

/-- What is left of the name when the part `.(?:gz|csv)$` of the regular expression is removed:
one character that is not a newline, then `gz` or `csv` (csv_files.go:16, the dot is not
escaped). -/
def stemOf (name : Str) : Option Str :=
  match name.reverse with
  | 'z' :: 'g' :: c :: r => if c = '\n' then none else some r.reverse
  | 'v' :: 's' :: 'c' :: c :: r => if c = '\n' then none else some r.reverse
  | _ => none

/-- csv_files.go:36-61 `filenameToIndices`, with the regular expression of line 16 unfolded. -/
def filenameToIndices (f : Str) : Option (Nat × Nat) :=
  match stemOf (pathBase f) with
  | none => none
  | some s => match s.dropWhile isDig with
    | '-' :: b =>
      if (s.takeWhile isDig).isEmpty || b.isEmpty || !b.all isDig then none
      else match atoi (s.takeWhile isDig), atoi b with
        | some x, some y => if x > y then none else some (x, y)
        | _, _ => none
    | _ => none

/-- csv_files.go:18-25 `EstimateCertCount`. -/
def estimateCertCount (f : Str) : Option Nat :=
  (filenameToIndices f).map fun p => p.2 - p.1 + 1

/-- csv_files.go:27-34 `CsvFilenameToFirstIndex`. -/
def csvFilenameToFirstIndex (f : Str) : Option Nat := (filenameToIndices f).map (·.1)

/-- The contract of `slices.SortFunc` with the comparison of csv_files.go:80-82 (the difference of
two indices below `2^63` does not overflow): the same elements, in an order that does not decrease
in the first index.  It says nothing about lists with other names. -/
def Sorter (srt : List Str → List Str) : Prop :=
  ∀ l : List Str, (∀ f ∈ l, (filenameToIndices f).isSome) →
    (srt l).Perm l ∧ (srt l).Pairwise fun a b =>
      (csvFilenameToFirstIndex a).getD 0 ≤ (csvFilenameToFirstIndex b).getD 0

/-- csv_files.go:65-90 `SortByBundleName`: the list afterwards and whether it succeeded; at the
first name without indices the list is left as it was. -/
def sortByBundleName (srt : List Str → List Str) (l : List Str) : List Str × Bool :=
  if l.all fun f => (filenameToIndices f).isSome then (srt l, true) else (l, false)

/-- `filepath.Join(dir, name)`. -/
def join (d n : Str) : Str := d ++ '/' :: n

/-- pattern `*.csv` -/
def isCsv (n : Str) : Bool := ['.', 'c', 's', 'v'].isSuffixOf n

/-- list_files.go:25, 29 `filepath.Glob(d + "/*" + ext)`: the matching entries of a directory, of
any kind. -/
def glob (p : Str → Bool) (d : Str) : Entries → List Str
  | .nil => []
  | .cons n _ _ rest => if p n then join d n :: glob p d rest else glob p d rest

/-- list_files.go:18-41: the loop over the entries (third argument) of the directory `d` with the
entries `all`; `gz` and `csv` are the result variables.  `filepath.Glob` ignores that a directory
cannot be read, `os.ReadDir` does not (lines 14-17, 34-37).  Errors of the sorting in the recursive
call are ignored (lines 44-45). -/
def loop (rd : Str → Bool) (srt : List Str → List Str) (d : Str) (all : Entries)
    (gz csv : List Str) : Entries → Option (List Str × List Str)
  | .nil => some (gz, csv)
  | .cons n isDir content rest =>
    if !isDir then loop rd srt d all gz csv rest
    else if n = bundledName then
      loop rd srt d all (if rd (join d n) then glob isGz (join d n) content else [])
        (glob isCsv d all) rest
    else if !rd (join d n) then none
    else match loop rd srt (join d n) content [] [] content with
      | none => none
      | some (g, c) => loop rd srt d all (gz ++ (sortByBundleName srt g).1)
          (csv ++ (sortByBundleName srt c).1) rest

/-- list_files.go:13-48 `ListCsvFiles`. -/
def listCsvFiles (rd : Str → Bool) (srt : List Str → List Str) (d : Str) (es : Entries) :
    Option (List Str × List Str) :=
  if !rd d then none
  else match loop rd srt d es [] [] es with
    | none => none
    | some (g, c) => some ((sortByBundleName srt g).1, (sortByBundleName srt c).1)

/-- `slices.Compact`: equal neighbours are merged. -/
def compact : List Str → List Str
  | [] => []
  | [a] => [a]
  | a :: b :: l => if a = b then compact (b :: l) else a :: compact (b :: l)

/-- journal.go:237-269 `listFiles`; `plain` is `IncludePlainCSVs` of the current job. -/
def listFiles (rd : Str → Bool) (srt : List Str → List Str) (plain : Bool) (d : Str) (es : Entries) :
    Option (List Str) :=
  match listCsvFiles rd srt d es with
  | none => none
  | some (g, c) =>
    match sortByBundleName srt (if plain then g ++ c else g) with
    | (_, false) => none
    | (l, true) => some (compact l)

/-- journal.go:194-219 `PendingFiles` of an open journal with the completed indices `done`; the key
is `filepath.Base(filepath.Clean(ingestDir))` (line 663). -/
def pending (rd : Str → Bool) (srt : List Str → List Str) (plain : Bool) (done : Completed) (d : Str)
    (es : Entries) : Option (List Str) :=
  match listFiles rd srt plain d es with
  | none => none
  | some l => pendingFiles (pathBase d) done l

/-- run.go:210-222: the estimates of all pending files, added up (`none`: the run fails).  The total
is a counter of the statistics; its overflow is not modelled. -/
def totalRows : List Str → Option Nat
  | [] => some 0
  | f :: fs => match estimateCertCount f with
    | none => none
    | some n => (totalRows fs).map (n + ·)

/-- run.go:202-247 `ingestFilesInBatches` up to the work on the batches: the batches in the order in
which they are handed out, `none` if the function fails before the first. -/
def batchesOf (rd : Str → Bool) (srt : List Str → List Str) (plain : Bool) (fileBatch : Nat)
    (done : Completed) (d : Str) (es : Entries) : Option (List (List Str)) :=
  match pending rd srt plain done d es with
  | none => none
  | some l => match totalRows l with
    | none => none
    | some _ => if l.isEmpty then some [] else some (chunks (batchSize fileBatch l.length) l)

end Fpki.Pending
