import Verif.Model.Ingest

/-!
# Model of `cmd/ingest/journal/list_files.go`

A directory is the list of its entries in the order of `os.ReadDir`.  Only the `.gz` result is
modelled.  The final `SortByBundleName` only permutes the result (csv_files.go:65-90) and is
omitted: statements are about membership.  Glob metacharacters in directory names are not
modelled.
-/
namespace Fpki.ListFiles
open Fpki.Ingest (Str)

/-- Entries of a directory: `cons name isDir content rest`. -/
inductive Entries where
  | nil
  | cons (name : Str) (isDir : Bool) (content : Entries) (rest : Entries)
deriving Repr, DecidableEq

def bundledName : Str := ['b', 'u', 'n', 'd', 'l', 'e', 'd']

/-- pattern `*.gz` -/
def isGz (n : Str) : Bool := ['.', 'g', 'z'].isSuffixOf n

/-- list_files.go:27 `filepath.Glob(d/*.gz)`. Paths are lists of components below the root. -/
def globGz (path : List Str) : Entries → List (List Str)
  | .nil => []
  | .cons n _ _ rest => if isGz n then (path ++ [n]) :: globGz path rest else globGz path rest

/-- list_files.go:13-48 `ListCsvFiles`: the loop over the entries with the result variable `acc`. -/
def listGz (path : List Str) (acc : List (List Str)) : Entries → List (List Str)
  | .nil => acc
  | .cons n isDir content rest =>
    if !isDir then listGz path acc rest
    else if n = bundledName then listGz path (globGz (path ++ [n]) content) rest
    else listGz path (acc ++ listGz (path ++ [n]) [] content) rest

end Fpki.ListFiles
