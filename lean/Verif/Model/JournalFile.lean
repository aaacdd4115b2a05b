import Verif.Model.Ingest

/-!
# Model of `cmd/ingest/journal/journal.go`: how the journal file is replaced

`Verif.Model.Ingest` treats "the journal file was replaced" as one event.  Here the system calls of `writeLocked` are single
steps on a file system; any of them can fail, the process can die and the machine can crash between any two of them, and
any number of processes may use the same journal.

* All names live in one directory: the directory of the journal (journal.go:339).
* The directory is the sequence of operations done on it; the first `durable` of them are on the disk.  A machine crash keeps
  some prefix containing those.  The bytes of a file survive a machine crash if it was synced after its last write;
  otherwise they are arbitrary afterwards.
* The contents of a journal are a type `J` with the JSON coding of `encoding/json` as `enc` and `dec`.
-/
namespace Fpki.JournalFile
open Fpki.Ingest

abbrev Name := Str
abbrev Data := List UInt8

/-- The coding of journals: journal.go:321-332 `write` (`json.MarshalIndent`), journal.go:396-411 `read` (`json.Unmarshal` and
`normalize`; `none` is an error), and the journal of a process that finds no file (journal.go:84-88). -/
structure Codec (J : Type) where
  enc : J → Data
  dec : Data → Option J
  init : J

/-- An operation on the directory. -/
inductive DirOp
  | create (n : Name) (i : Nat)
  | rename (a b : Name)
  | remove (n : Name)
deriving DecidableEq

/-- A directory: the file (inode) of every name. -/
abbrev Dir := Name → Option Nat

/-- Effect of `os.CreateTemp`, `os.Rename` and `os.Remove` on the directory (journal.go:340, 347, 364). -/
def DirOp.apply (d : Dir) : DirOp → Dir
  | .create n i => fun m => if m = n then some i else d m
  | .rename a b => fun m => if m = b then d a else if m = a then none else d m
  | .remove n => fun m => if m = n then none else d m

/-- The file system: the directory at the start, the operations since, how many of them are on the disk, the bytes of the files,
which files are synced, and a number no file has yet. -/
structure Fs where
  dir0 : Dir
  log : List DirOp
  durable : Nat
  data : Nat → Data
  synced : Nat → Bool
  next : Nat

/-- The directory after the first `k` operations. -/
def Fs.dirAt (f : Fs) (k : Nat) : Dir := (f.log.take k).foldl DirOp.apply f.dir0

/-- The directory processes see. -/
def Fs.dir (f : Fs) : Dir := f.log.foldl DirOp.apply f.dir0

/-- journal.go:340: `os.CreateTemp(dir, base+".tmp-*")` makes a name of the base name of the journal and a random number. -/
def tempName (base : Name) (r : Nat) : Name := base ++ ('.' :: 't' :: 'm' :: 'p' :: '-' :: showNat r)

/-- Where a call of `writeLocked` is (journal.go:335-372); `t`, `i` are the name and the file of the temporary file. -/
inductive Pc
  | idle
  | creating
  | writing (t : Name) (i : Nat) (rest : Data)
  | closing (t : Name) (i : Nat)
  | renaming (t : Name) (i : Nat)
  | cleaning (t : Name) (i : Nat)
deriving DecidableEq

/-- A running process: its journal in memory, `Journal.closed`, whether the call being executed is `Close`, where it is, and the
result of the last call that returned (`some true`: nil). -/
structure Proc (J : Type) where
  mem : J
  closed : Bool
  isClose : Bool
  pc : Pc
  result : Option Bool

/-- The machine: the name of the journal, the file system, and the processes (`none`: not running). -/
structure State (J : Type) where
  base : Name
  fs : Fs
  procs : Nat → Option (Proc J)

/-- What can happen. -/
inductive Act (J : Type)
  | start (p : Nat)
  | call (p : Nat) (j : J) (isClose : Bool)
  | create (p : Nat) (r : Nat)
  | createFail (p : Nat)
  | chunk (p : Nat) (n : Nat)
  | writeFail (p : Nat)
  | sync (p : Nat) (ok : Bool)
  | close (p : Nat) (ok : Bool)
  | rename (p : Nat) (ok : Bool)
  | remove (p : Nat) (ok : Bool)
  | kill (p : Nat)
  | flush (k : Nat)
  | crash (k : Nat) (junk : Nat → Data)

variable {J : Type}

/-- Update of one process. -/
def State.setProc (s : State J) (p : Nat) (x : Option (Proc J)) : State J :=
  { s with procs := fun q => if q = p then x else s.procs q }

/-- A file system after one more directory operation. -/
def Fs.push (f : Fs) (o : DirOp) : Fs := { f with log := f.log ++ [o] }

/-- The machine restarts: `k` directory operations survive, files that were not synced get arbitrary bytes. -/
def Fs.crash (f : Fs) (k : Nat) (junk : Nat → Data) : Fs :=
  { f with
      log := f.log.take k
      durable := (f.log.take k).length
      data := fun i => if f.synced i then f.data i else junk i
      synced := fun _ => true }

/-- What a process reads when it opens the journal (journal.go:82-95): nothing, or the bytes of the file. -/
def State.journal (s : State J) : Option Data := (s.fs.dir s.base).map s.fs.data

/-- The journal in memory of a process that starts (journal.go:75-104, before the new job is appended); `none`: `NewJournal` returns
an error. -/
def load (C : Codec J) (s : State J) : Option J :=
  match s.journal with
  | none => some C.init
  | some b => C.dec b

/-- One step; `none`: not possible now. -/
def exec (C : Codec J) (s : State J) : Act J → Option (State J)
  /- journal.go:75-95 `NewJournal`; the write of line 101 is a `call` that follows. -/
  | .start p =>
    match s.procs p with
    | some _ => none
    | none =>
      match load C s with
      | none => none
      | some j => some (s.setProc p (some ⟨j, false, false, .idle, none⟩))
  /- journal.go:143-166 `CommitProgress`, 170-184 `CommitCTLogSize`, 294-303 `Write`, 306-318 `Close`: the lock is taken, `j` is the
  journal in memory when `writeLocked` starts. On a closed journal only `Close` returns nil, and nothing is written. -/
  | .call p j c =>
    match s.procs p with
    | none => none
    | some x =>
      if x.pc = .idle then
        if x.closed then some (s.setProc p (some { x with result := some c }))
        else some (s.setProc p (some { x with mem := j, isClose := c, pc := .creating, result := none }))
      else none
  /- journal.go:340 `os.CreateTemp`: a name that does not exist (`O_EXCL`). -/
  | .create p r =>
    match s.procs p with
    | none => none
    | some x =>
      if x.pc = .creating ∧ s.fs.dir (tempName s.base r) = none then
        let t := tempName s.base r
        let i := s.fs.next
        let f := s.fs.push (.create t i)
        some { s.setProc p (some { x with pc := .writing t i (C.enc x.mem) }) with
          fs := { f with
            next := i + 1
            data := fun m => if m = i then [] else f.data m
            synced := fun m => if m = i then false else f.synced m } }
      else none
  /- journal.go:341-343 -/
  | .createFail p =>
    match s.procs p with
    | none => none
    | some x => if x.pc = .creating then some (s.setProc p (some { x with pc := .idle, result := some false })) else none
  /- journal.go:326 `f.Write`: the next `n` bytes reach the file. -/
  | .chunk p n =>
    match s.procs p with
    | none => none
    | some x =>
      match x.pc with
      | .writing t i rest =>
        some { s.setProc p (some { x with pc := .writing t i (rest.drop n) }) with
          fs := { s.fs with
            data := fun m => if m = i then s.fs.data m ++ rest.take n else s.fs.data m
            synced := fun m => if m = i then false else s.fs.synced m } }
      | _ => none
  /- journal.go:350-354 -/
  | .writeFail p =>
    match s.procs p with
    | none => none
    | some x =>
      match x.pc with
      | .writing t i _ => some (s.setProc p (some { x with pc := .cleaning t i }))
      | _ => none
  /- journal.go:355-359 `tempFile.Sync`, after all bytes were written. -/
  | .sync p ok =>
    match s.procs p with
    | none => none
    | some x =>
      match x.pc with
      | .writing t i [] =>
        if ok then
          some { s.setProc p (some { x with pc := .closing t i }) with
            fs := { s.fs with synced := fun m => if m = i then true else s.fs.synced m } }
        else some (s.setProc p (some { x with pc := .cleaning t i }))
      | _ => none
  /- journal.go:360-363 `closeFile` -/
  | .close p ok =>
    match s.procs p with
    | none => none
    | some x =>
      match x.pc with
      | .closing t i => some (s.setProc p (some { x with pc := if ok then .renaming t i else .cleaning t i }))
      | _ => none
  /- journal.go:364-371 `os.Rename`; `syncDirAfterRename` (701-716) does nothing, so the call returns nil. `Close` then sets `closed`
  (line 316). -/
  | .rename p ok =>
    match s.procs p with
    | none => none
    | some x =>
      match x.pc with
      | .renaming t i =>
        if ok then
          some { s.setProc p (some { x with pc := .idle, result := some true, closed := x.isClose }) with
            fs := s.fs.push (.rename t s.base) }
        else some (s.setProc p (some { x with pc := .cleaning t i }))
      | _ => none
  /- journal.go:346-348 `cleanup`; its error is ignored. -/
  | .remove p ok =>
    match s.procs p with
    | none => none
    | some x =>
      match x.pc with
      | .cleaning t _ =>
        some { s.setProc p (some { x with pc := .idle, result := some false }) with
          fs := if ok then s.fs.push (.remove t) else s.fs }
      | _ => none
  /- the process dies (or ends) at any point -/
  | .kill p =>
    match s.procs p with
    | none => none
    | some _ => some (s.setProc p none)
  /- the operating system writes directory operations to the disk -/
  | .flush k =>
    if s.fs.durable ≤ k ∧ k ≤ s.fs.log.length then some { s with fs := { s.fs with durable := k } } else none
  /- the machine crashes and restarts -/
  | .crash k junk =>
    if s.fs.durable ≤ k then some { s with fs := s.fs.crash k junk, procs := fun _ => none } else none

/-- A run. -/
def run (C : Codec J) (s : State J) : List (Act J) → Option (State J)
  | [] => some s
  | a :: as => match exec C s a with
    | none => none
    | some s' => run C s' as

/-- A machine on which no journal process runs; the directory may hold other files, and a journal. -/
def boot (base : Name) (d : Dir) (data : Nat → Data) (next : Nat) : State J :=
  ⟨base, ⟨d, [], 0, data, fun _ => true, next⟩, fun _ => none⟩

end Fpki.JournalFile
