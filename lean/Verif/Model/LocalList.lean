import Verif.Model.Fetch
import Verif.Model.Rows

/-!
# Model of how the local log fetcher finds its files: `listFiles`, `getFileInfo` and `Initialize` in `pkg/mapserver/logfetcher/locallogfetcher.go`

A directory is the list of the entries that `os.ReadDir` gives, in its order; `failed` says that `os.ReadDir` gave an error (with the entries before the error). Symbolic
links are files here, as for `filepath.WalkDir`.
-/
namespace Fpki.LocalList

open Fpki.Fetch (File StateMap initMap getCurrentState requestedFiles)

/-- The entries of a directory. -/
inductive Tree where
  | nil
  | cons (name : Bytes) (isDir failed : Bool) (content rest : Tree)
deriving DecidableEq, Repr

/-- What `os.Lstat` finds at the folder of the fetcher: nothing (or an error), or an entry. -/
inductive Folder where
  | missing
  | entry (isDir failed : Bool) (content : Tree)
deriving DecidableEq, Repr

/-- strings.CutSuffix -/
def cutSuffix (s suf : Bytes) : Option Bytes := if suf.isSuffixOf s then some (s.take (s.length - suf.length)) else none

/-- `.gz` -/
def gzExt : Bytes := [46, 103, 122]

/-- `.csv` -/
def csvExt : Bytes := [46, 99, 115, 118]

/-- locallogfetcher.go:480-505 `getFileInfo`; `none` is an error, `some none` is `nil, nil`. `strings.Split(r, "-")` has two parts if there is one dash. The flag
`isGzipped` is not in the result (it is the list in which the file is put). -/
def getFileInfo (path fileName : Bytes) (isGzipped : Bool) : Option (Option File) :=
  let extension := if isGzipped then gzExt else csvExt
  match cutSuffix fileName extension with
  | none => some none
  | some r =>
    if r.count 45 = 1 then
      match Rows.parseInt64 (r.takeWhile (· != 45)) with
      | none => none
      | some start =>
        match Rows.parseInt64 (r.dropWhile (· != 45)).tail with
        | none => none
        | some stop => some (some ⟨path, start, stop⟩)
    else some none

/-- The files found so far: gzipped, and not. -/
abbrev Found := List File × List File

/-- locallogfetcher.go:511-524: the callback for something that is not a directory. -/
def visit (path name : Bytes) : Option Found :=
  match getFileInfo path name true with
  | none => none
  | some g =>
    match getFileInfo path name false with
    | none => none
    | some c => some (g.toList, c.toList)

/-- path/filepath `walkDir` over the entries of the directory `path`: the callback is called for each of them, and the first error ends it. For a directory the
callback returns nil (locallogfetcher.go:510, 526), also when it is called again because the directory could not be read: then the walk goes on with the entries it has. -/
def walk (path : Bytes) : Tree → Option Found
  | .nil => some ([], [])
  | .cons name isDir _ content rest =>
    match (if isDir then walk (path ++ [47] ++ name) content else visit (path ++ [47] ++ name) name) with
    | none => none
    | some a =>
      match walk path rest with
      | none => none
      | some b => some (a.1 ++ b.1, a.2 ++ b.2)

/-- How `Initialize` ends. -/
inductive Out (α : Type) where
  | panic
  | err
  | ok (a : α)
deriving DecidableEq

/-- locallogfetcher.go:508-529 `listFiles`, with the `append` of 112. If there is no such folder, `filepath.WalkDir` calls the callback with a nil `DirEntry`, whose
`IsDir` is called in 510. `base` is the last component of the folder. -/
def listFiles (folder base : Bytes) : Folder → Out (List File)
  | .missing => .panic
  | .entry isDir _ content =>
    match (if isDir then walk folder content else visit folder base) with
    | none => .err
    | some a => .ok (a.1 ++ a.2)

/-- locallogfetcher.go:96-132 `Initialize`, the part about files; if `initMap` is `none` it is the error of 119, or the recursion never ends (C26), here also `err`. -/
def initFiles (folder base : Bytes) (f : Folder) (order : List Int) (fuel : Nat) : Out StateMap :=
  match listFiles folder base f with
  | .panic => .panic
  | .err => .err
  | .ok files =>
    match initMap files order fuel with
    | none => .err
    | some m => .ok m

end Fpki.LocalList
