import Verif.Model.Ingest
import Verif.Model.PolicyCert

/-!
# Model of `cmd/ingest/journal/journal.go`: slices in memory and the persisted text

`appendInterval` works in place on Go slices, and every job of the journal owns a map of slices.
Part A models the slices with their backing arrays, so that sharing would be visible.
Part B models the text form of the completed indices (map keys are byte strings: directory names).
-/
namespace Fpki.JournalMem
open Fpki.Journal Fpki.Ingest

/-! ## Part A: slices -/

/-- The backing arrays; an array's length is its capacity. -/
abbrev Heap := List (List Interval)

/-- A slice `arr[0:len]` with the capacity of its array (no slice of journal.go starts elsewhere
and is kept). -/
structure Slice where
  arr : Nat
  len : Nat
deriving Repr, DecidableEq, Inhabited

/-- The array of a slice. -/
def array (h : Heap) (s : Slice) : List Interval := h.getD s.arr []

/-- The elements of a slice. -/
def content (h : Heap) (s : Slice) : List Interval := (array h s).take s.len

/-- `make([]Interval, 0, cap)` and `[]Interval{}` (journal.go:530, 534, 568): a new array. -/
def makeSlice (h : Heap) (cap : Nat) : Heap × Slice :=
  (h ++ [List.replicate cap ⟨0, 0⟩], ⟨h.length, 0⟩)

/-- `append(s[:i], s[i+1:]...)` (journal.go:595, 601): the capacity suffices, so the elements after
`i` move down in place; the last old element stays behind the end of the new slice. -/
def eraseAt (h : Heap) (s : Slice) (i : Nat) : Heap × Slice :=
  let a := array h s
  (h.set s.arr (a.take i ++ (a.take s.len).drop (i + 1) ++ a.drop (s.len - 1)), ⟨s.arr, s.len - 1⟩)

/-- `append(s, Interval{})` (journal.go:606): in place if there is capacity, otherwise a new array
with `extra` unused elements (the growth policy of the runtime is left open). -/
def appendZero (h : Heap) (s : Slice) (extra : Nat) : Heap × Slice :=
  let a := array h s
  if s.len < a.length then (h.set s.arr (a.set s.len ⟨0, 0⟩), ⟨s.arr, s.len + 1⟩)
  else (h ++ [a.take s.len ++ ⟨0, 0⟩ :: List.replicate extra ⟨0, 0⟩], ⟨h.length, s.len + 1⟩)

/-- `copy(s[idx+1:], s[idx:])` (journal.go:607), a `memmove`. -/
def copyUp (h : Heap) (s : Slice) (idx : Nat) : Heap :=
  let a := array h s
  h.set s.arr (a.take (idx + 1) ++ ((a.take s.len).drop idx).take (s.len - (idx + 1)) ++ a.drop s.len)

/-- `s[idx] = x` (journal.go:608). -/
def setAt (h : Heap) (s : Slice) (idx : Nat) (x : Interval) : Heap :=
  h.set s.arr ((array h s).set idx x)

/-- The loop of journal.go:599-602. -/
def absorbMem (h : Heap) (s : Slice) (idx : Nat) (x : Interval) : Heap × Slice × Interval :=
  if hlt : idx < s.len then
    if canMerge x ((content h s).getD idx default) then
      absorbMem (eraseAt h s idx).1 ⟨s.arr, s.len - 1⟩ idx (mergeIntervals x ((content h s).getD idx default))
    else (h, s, x)
  else (h, s, x)
termination_by s.len - idx
decreasing_by omega

/-- journal.go:604-609: reinsertion of the merged interval. -/
def insertMem (h : Heap) (s : Slice) (idx : Nat) (x : Interval) (extra : Nat) : Heap × Slice :=
  let r := appendZero h s extra
  (setAt (copyUp r.1 r.2 idx) r.2 idx x, r.2)

/-- journal.go:575-610 `appendInterval`, in place. -/
def appendMem (h : Heap) (s : Slice) (x : Interval) (extra : Nat) : Heap × Slice :=
  let l := content h s
  let idx := searchIdx l x
  if idx > 0 && canMerge (l.getD (idx - 1) default) x then
    let e := eraseAt h s (idx - 1)
    let r := absorbMem e.1 e.2 (idx - 1) (mergeIntervals (l.getD (idx - 1) default) x)
    insertMem r.1 r.2.1 (idx - 1) r.2.2 extra
  else
    let r := absorbMem h s idx x
    insertMem r.1 r.2.1 idx r.2.2 extra

/-- `CompletedIndices` (journal.go:65) in memory. -/
abbrev MemCompleted := List (Str × Slice)

/-- journal.go:51-61 `Job` in memory (time stamps, working directory, command line and
configuration are not modelled). -/
structure MemJob where
  coalesced : Bool
  updatedSMT : Bool
  ctSize : Nat
  completed : MemCompleted
deriving Repr, DecidableEq, Inhabited

/-- The journal in memory with the arrays it uses. -/
structure Mem where
  heap : Heap
  jobs : List MemJob
deriving Repr, DecidableEq, Inhabited

/-- What a job says: the values a `json.Marshal` of it sees (journal.go:487-497). -/
def MemJob.read (h : Heap) (j : MemJob) : Job :=
  ⟨j.coalesced, j.updatedSMT, j.ctSize, j.completed.map fun p => (p.1, content h p.2)⟩

/-- What the journal says. -/
def Mem.read (m : Mem) : List Job := m.jobs.map (MemJob.read m.heap)

/-- `slices.Clone` (journal.go:549): the elements in a new array with some unused capacity (an empty
slice is cloned to one of capacity 0, modelled as a new array too). -/
def cloneSlice (h : Heap) (s : Slice) (extra : Nat) : Heap × Slice :=
  (h ++ [content h s ++ List.replicate extra ⟨0, 0⟩], ⟨h.length, s.len⟩)

/-- journal.go:546-552 `cloneCompletedIndices`. -/
def cloneMem (extra : Nat) : Heap → MemCompleted → Heap × MemCompleted
  | h, [] => (h, [])
  | h, (k, s) :: rest =>
    let c := cloneSlice h s extra
    let r := cloneMem extra c.1 rest
    (r.1, (k, c.2) :: r.2)

/-- journal.go:273-291 `appendJob`. -/
def appendJobMem (m : Mem) (extra : Nat) : Mem :=
  match m.jobs.getLast? with
  | none => ⟨m.heap, m.jobs ++ [⟨false, false, 0, []⟩]⟩
  | some j =>
    let c := cloneMem extra m.heap j.completed
    ⟨c.1, m.jobs ++ [⟨j.coalesced, j.updatedSMT, j.ctSize, c.2⟩]⟩

/-- journal.go:565-571 `addCompletedInterval`. -/
def addMem (h : Heap) (c : MemCompleted) (k : Str) (x : Interval) (extra : Nat) : Heap × MemCompleted :=
  match c.find? (·.1 == k) with
  | some p =>
    let r := appendMem h p.2 x extra
    (r.1, (k, r.2) :: c.filter (·.1 != k))
  | none =>
    let e := makeSlice h 0
    let r := appendMem e.1 e.2 x extra
    (r.1, (k, r.2) :: c.filter (·.1 != k))

/-- The loop of journal.go:156-162. -/
def addFilesMem (key : Str) (extra : Nat) : Heap → MemCompleted → List Str → Heap × MemCompleted × Bool
  | h, c, [] => (h, c, true)
  | h, c, f :: fs => match parseFileInterval f with
    | none => (h, c, false)
    | some x =>
      let r := addMem h c key x extra
      addFilesMem key extra r.1 r.2 fs

/-- journal.go:143-166 `CommitProgress` up to the write; the result says whether all names parsed. -/
def commitMem (m : Mem) (key : Str) (files : List Str) (coalesced smt : Bool) (extra : Nat) : Mem × Bool :=
  match m.jobs.getLast? with
  | none => (m, false)
  | some j =>
    let r := addFilesMem key extra m.heap j.completed files
    if r.2.2 then (⟨r.1, m.jobs.dropLast ++ [⟨coalesced || smt, smt, j.ctSize, r.2.1⟩]⟩, true)
    else (⟨r.1, m.jobs.dropLast ++ [⟨j.coalesced, j.updatedSMT, j.ctSize, r.2.1⟩]⟩, false)

/-- journal.go:170-184 `CommitCTLogSize` up to the write. -/
def commitCtMem (m : Mem) (n : Nat) : Mem × Bool :=
  match m.jobs.getLast? with
  | none => (m, false)
  | some j => (⟨m.heap, m.jobs.dropLast ++ [⟨j.coalesced, j.updatedSMT, n, j.completed⟩]⟩, true)

/-- journal.go:534-540: one list of `normalizeCompletedIndices`, inserted into a new slice. -/
def normalizeListMem (extra : Nat) : Heap → Slice → List Interval → Option (Heap × Slice)
  | h, s, [] => some (h, s)
  | h, s, x :: xs =>
    if x.start > x.stop then none
    else
      let r := appendMem h s x extra
      normalizeListMem extra r.1 r.2 xs

/-- journal.go:519-544 `normalizeCompletedIndices`. -/
def normalizeMem (extra : Nat) : Heap → Completed → Option (Heap × MemCompleted)
  | h, [] => some (h, [])
  | h, (k, l) :: rest =>
    if k.isEmpty then none
    else
      let e := makeSlice h l.length
      match normalizeListMem extra e.1 e.2 l with
      | none => none
      | some r => match normalizeMem extra r.1 rest with
        | none => none
        | some q => some (q.1, (k, r.2) :: q.2)

/-- journal.go:384-393 `normalize` over the decoded jobs. -/
def normalizeJobsMem (extra : Nat) : Heap → List Job → Option (Heap × List MemJob)
  | h, [] => some (h, [])
  | h, j :: js =>
    match normalizeMem extra h j.completed with
    | none => none
    | some r => match normalizeJobsMem extra r.1 js with
      | none => none
      | some q => some (q.1, ⟨j.coalesced, j.updatedSMT, j.ctSize, r.2⟩ :: q.2)

/-- journal.go:75-108 `NewJournal` (the jobs decoded from the file, then `appendJob`). -/
def openMem (extra : Nat) : Disk → Option Mem
  | none => some (appendJobMem ⟨[], []⟩ extra)
  | some jobs => match normalizeJobsMem extra [] jobs with
    | none => none
    | some r => some (appendJobMem ⟨r.1, r.2⟩ extra)

/-- Calls on an open journal; `extra` is what the runtime adds to a new array. -/
inductive Call where
  | commit (key : Str) (files : List Str) (coalesced smt : Bool) (extra : Nat)
  | ctSize (n : Nat)
deriving Repr, DecidableEq

/-- One call in memory. -/
def callMem (m : Mem) : Call → Mem × Bool
  | .commit key files c s extra => commitMem m key files c s extra
  | .ctSize n => commitCtMem m n

/-! ## Part B: the persisted text -/

open Fpki.Policy (fixUtf8)

/-- `CompletedIndices` with the keys as bytes. -/
abbrev ByteCompleted := List (Bytes × List Interval)

/-- journal.go:487-497 `encodeCompletedIndices`. -/
def encode (c : ByteCompleted) : List (Bytes × List Str) :=
  c.map fun p => (p.1, p.2.map showInterval)

/-- `json.Marshal` followed by `json.Unmarshal` of a `map[string][]string` (journal.go:322, 402,
462-472), listed in the order of the text: invalid UTF-8 in a key becomes U+FFFD, and of entries
with the same key the last one stays. The digits and the hyphen of the values are kept. -/
def throughJson (raw : List (Bytes × List Str)) : List (Bytes × List Str) :=
  raw.foldl (fun m p => (fixUtf8 p.1, p.2) :: m.filter (·.1 != fixUtf8 p.1)) []

/-- journal.go:505-513: the intervals of one key. -/
def decodeList : List Str → Option (List Interval)
  | [] => some []
  | s :: ss => match parseIntervalString s, decodeList ss with
    | some x, some r => some (x :: r)
    | _, _ => none

/-- journal.go:499-517 `decodeCompletedIndices`. -/
def decode : List (Bytes × List Str) → Option ByteCompleted
  | [] => some []
  | (k, l) :: rest => match decodeList l, decode rest with
    | some x, some r => some ((k, x) :: r)
    | _, _ => none

/-- journal.go:519-544 `normalizeCompletedIndices` (keys as bytes). -/
def normalizeBytes : ByteCompleted → Option ByteCompleted
  | [] => some []
  | (k, l) :: rest =>
    if k.isEmpty then none
    else match normalizeList [] l, normalizeBytes rest with
      | some l', some r => some ((k, l') :: r)
      | _, _ => none

/-- The completed indices of a job after it was written and read again (journal.go:320-332,
396-411). -/
def reload (c : ByteCompleted) : Option ByteCompleted :=
  (decode (throughJson (encode c))).bind normalizeBytes

/-- Map lookup. -/
def get (c : ByteCompleted) (k : Bytes) : Option (List Interval) := (c.find? (·.1 == k)).map (·.2)

end Fpki.JournalMem
