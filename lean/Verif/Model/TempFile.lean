import Verif.Model.Domain
/-!
# Model of the temporary CSV files of the updater
`pkg/util/noallocs` (`CreateTempFile`, `StringToBytePtr`, `Open`, `RingCache`), `pkg/mapserver/updater/csv.go` (creation of the files),
`certsWorker.go` and `domainWorker.go`: the stages that create, load and remove the CSV files, for all workers, on one file system.

Names of files are not copied: a name travels through the stages as a view of a slot of a ring of 8 byte arrays. A `Tok` is such a view. The texts written are
parameters (their contents: C77). A `Write` that fails leaves any prefix of the text. File descriptors are not modelled.
-/
namespace Fpki.TempFile

/-- `copy(storage[off:], b)` for a slice: what does not fit is dropped. -/
def copyAt (st : Bytes) (off : Nat) (b : Bytes) : Bytes := st.take off ++ b.take (st.length - off) ++ st.drop (off + b.length)

/-- What the kernel takes as the path: the bytes up to the first zero. -/
def cstr (st : Bytes) : Bytes := st.takeWhile (· != 0)

/-- tempfile.go:11 -/
def charMap : Bytes := Domain.asc "0123456789-abcdefghijklmnopqrstuvwxyz"

/-- tempfile.go:12 -/
def numRandom : Nat := 10

/-- tempfile.go:56-64: the random characters; `v i` is the value of the `i`-th call of `rand.Intn`. -/
def randomChars (v : Nat → Nat) : Bytes := (List.range numRandom).map fun i => charMap.getD (v i % charMap.length) 0

/-- string.go:5-13, where `str` is not already at the start of the storage, or is (then the copy changes nothing). -/
def stringToBytePtr (st : Bytes) (str : Bytes) : Bytes := copyAt (st.set str.length 0) 0 str

/-- tempfile.go:31-44: `n` attempts are left; `v a i` is the random value number `i` of attempt `a`. `O_EXCL`: opening fails iff the file exists.
Result: the storage, and the path created. Other errors of `open`: see `Act.makeFail`. -/
def attempts (ex : Bytes → Bool) (pre : Nat) (st : Bytes) (v : Nat → Nat → Nat) (a : Nat) : Nat → Bytes × Option Bytes
  | 0 => (st, none)
  | n + 1 =>
    if ex (cstr (copyAt st pre (randomChars (v a)))) then attempts ex pre (copyAt st pre (randomChars (v a))) v (a + 1) n
    else (copyAt st pre (randomChars (v a)), some (cstr (copyAt st pre (randomChars (v a)))))

/-- tempfile.go:20-27: the storage before the first attempt. -/
def layOut (st pre suf : Bytes) : Bytes :=
  (stringToBytePtr (copyAt (copyAt st 0 pre) (pre.length + numRandom) suf) pre).set (pre.length + numRandom + suf.length) 0

/-- tempfile.go:17-46, result: the storage and, unless ten files existed, the path that was created. The name that is returned is the view of the first
`pre.length + 10 + suf.length` bytes of the storage (37). The accesses are inside the storage if it is longer than that (`Props`: it is). -/
def createTempFile (ex : Bytes → Bool) (st pre suf : Bytes) (v : Nat → Nat → Nat) : Bytes × Option Bytes :=
  attempts ex pre.length (layOut st pre suf) v 0 10

/-- The files: path and content. -/
abbrev Disk := List (Bytes × Bytes)

def Disk.exists (d : Disk) (p : Bytes) : Bool := d.any fun f => f.1 == p

def Disk.read (d : Disk) (p : Bytes) : Option Bytes := (d.find? fun f => f.1 == p).map Prod.snd

/-- file.go:10-30 and csv.go:128-156: `Open` (`O_CREAT|O_APPEND`) and all the writes. -/
def Disk.append (d : Disk) (p : Bytes) (b : Bytes) : Disk :=
  if d.exists p then d.map fun f => if f.1 == p then (f.1, f.2 ++ b) else f else (p, b) :: d

def Disk.remove (d : Disk) (p : Bytes) : Disk := d.eraseP fun f => f.1 == p

/-- csv.go:19 -/
def filepathLen : Nat := 2048
/-- csv.go:20 -/
def filepathCacheSize : Nat := 8

/-- ringcache.go:3-7 -/
structure Ring where
  cur : Nat
  slots : List Bytes
deriving Repr, DecidableEq

/-- baseworker.go:5-11 -/
def Ring.new : Ring := ⟨0, List.replicate filepathCacheSize (List.replicate filepathLen 0)⟩

/-- ringcache.go:25-33: the slot handed out is `r.cur`. -/
def Ring.rotate (r : Ring) : Ring := { r with cur := (r.cur + 1) % filepathCacheSize }

/-- A file name in flight: the view of the first `len` bytes of a slot of ring number `ring` of its lane. `id` is not in the code: the number of the file in
`Lane.created`. -/
structure Tok where
  id : Nat
  ring : Nat
  slot : Nat
  len : Nat
deriving Repr, DecidableEq

/-- The two kinds of lanes: `D, E, F` and `H, I, J` of manager.go:106-119. -/
inductive Kind where
  | certs
  | domains
deriving Repr, DecidableEq

/-- csv.go:15 -/
def temporaryDir : Bytes := Domain.asc "/mnt/data/tmp/"

/-- csv.go:36-96: the prefixes of the files of one batch, in the order of their creation (certsWorker.go:160; domainWorker.go:122-143). -/
def Kind.prefixes : Kind → List Bytes
  | .certs => [temporaryDir ++ Domain.asc "fpki-ingest-certs-"]
  | .domains => [temporaryDir ++ Domain.asc "fpki-ingest-dirty-", temporaryDir ++ Domain.asc "fpki-ingest-domains-",
      temporaryDir ++ Domain.asc "fpki-ingest-domain_certs-"]

/-- csv.go:46, 61, 77, 93 -/
def suffix : Bytes := Domain.asc ".csv"

/-- certsWorker.go:156-162; domainWorker.go:114-146 -/
inductive Maker where
  | idle
  /-- inside the process function: the files made, and the texts of those to make -/
  | making (made : List Tok) (todo : List Bytes)
  | sending (ts : List Tok)
  | ended
deriving Repr, DecidableEq

/-- certsWorker.go:181-190; domainWorker.go:166-182 -/
inductive Loader where
  | idle
  | loading (done todo : List Tok)
  | sending (ts : List Tok)
  | ended
deriving Repr, DecidableEq

/-- certsWorker.go:203-205; domainWorker.go:197-202 -/
inductive Remover where
  | idle
  /-- `bad`: some `os.Remove` of this batch has failed -/
  | removing (todo : List Tok) (bad : Bool)
  | ended
deriving Repr, DecidableEq

structure Lane where
  kind : Kind
  /-- one per file of a batch: certsWorker.go:149; domainWorker.go:94, 101, 108 -/
  rings : List Ring
  maker : Maker
  loader : Loader
  remover : Remover
  /-- the batches to come: for each the texts of its files -/
  input : List (List Bytes)
  /-- observations: every batch that was given to this lane -/
  given : List (List Bytes)
  /-- every file created, with its content -/
  created : List (Bytes × Bytes)
  /-- every successful `LOAD DATA`: which file it was to load, and the content it has read -/
  loaded : List (Nat × Bytes)
  /-- every successful `os.Remove`: which file it was to remove, and the path it has removed -/
  removed : List (Nat × Bytes)
  /-- something has failed in this lane since the start -/
  failed : Bool
deriving Repr, DecidableEq

def Lane.new (k : Kind) (input : List (List Bytes)) : Lane :=
  ⟨k, k.prefixes.map fun _ => Ring.new, .idle, .idle, .idle, input, input, [], [], [], false⟩

/-- What a stage sees when it uses the name `t` now. -/
def Lane.view (l : Lane) (t : Tok) : Bytes :=
  match l.rings[t.ring]? with
  | some r => ((r.slots[t.slot]?).getD []).take t.len
  | none => []

inductive Act where
  /-- a batch is received -/
  | take
  /-- the next file of the batch is created and written, with these random values -/
  | make (v : Nat → Nat → Nat)
  /-- creating, opening, writing or closing fails; `left`: the file exists and has this many bytes of its text -/
  | makeFail (v : Nat → Nat → Nat) (left : Option Nat)
  /-- the names go from the maker to the loader -/
  | give
  /-- the next file is loaded into the DB; `fails`: the DB returns an error -/
  | load (fails : Bool)
  /-- the names go from the loader to the remover -/
  | pass
  /-- the next file is removed; `fails`: `os.Remove` fails -/
  | rm (fails : Bool)
  /-- the input of the maker is closed, or the loader has reported an error -/
  | endMaker
  | endLoader
  | endRemover
  /-- the pipeline is resumed (manager.go:66-72), these batches will come -/
  | resume (input : List (List Bytes))

/-- csv.go:121-203 for file number `made.length` of the batch: the slot of its ring is filled, the file created. Result: lane (maker unchanged), path. -/
def Lane.createFile (l : Lane) (d : Disk) (j : Nat) (v : Nat → Nat → Nat) : Option (Lane × Option (Tok × Bytes)) :=
  match l.rings[j]?, l.kind.prefixes[j]? with
  | some r, some pre =>
    match r.slots[r.cur]? with
    | some st =>
      let res := createTempFile d.exists st pre suffix v
      let r' : Ring := { r.rotate with slots := r.slots.set r.cur res.1 }
      some ({ l with rings := l.rings.set j r' },
        res.2.map fun p => (⟨l.created.length, j, r.cur, pre.length + numRandom + suffix.length⟩, p))
    | none => none
  | _, _ => none

/-- After the file number `made.length`: next one, or send the names (certsWorker.go:161; domainWorker.go:146). -/
def afterMake (made : List Tok) (todo : List Bytes) : Maker := if todo.isEmpty then .sending made else .making made todo

def afterLoad (done todo : List Tok) : Loader := if todo.isEmpty then .sending done else .loading done todo

/-- util.ErrorsCoalesce (domainWorker.go:201): an error ends the stage. -/
def afterRemove (todo : List Tok) (bad : Bool) : Remover := if todo.isEmpty then (if bad then .ended else .idle) else .removing todo bad

/-- One step of the lane on the file system. -/
def Lane.exec (l : Lane) (d : Disk) : Act → Option (Lane × Disk)
  | .take =>
    match l.maker, l.input with
    | .idle, b :: rest => if b.length = l.kind.prefixes.length then some ({ l with maker := .making [] b, input := rest }, d) else none
    | _, _ => none
  | .make v =>
    match l.maker with
    | .making made (c :: todo) =>
      match l.createFile d made.length v with
      | some (l', some (t, p)) =>
        some ({ l' with maker := afterMake (made ++ [t]) todo, created := l'.created ++ [(p, c)] },
          Disk.append ((p, []) :: d) (l'.view t) c)
      | some (l', none) => some ({ l' with maker := .ended, failed := true }, d)
      | none => none
    | _ => none
  | .makeFail v left =>
    match l.maker with
    | .making made (c :: _) =>
      match l.createFile d made.length v, left with
      | some (l', some (t, p)), some n =>
        some ({ l' with maker := .ended, failed := true, created := l'.created ++ [(p, c.take n)] },
          Disk.append ((p, []) :: d) (l'.view t) (c.take n))
      | some (l', _), _ => some ({ l' with maker := .ended, failed := true }, d)
      | none, _ => none
    | _ => none
  | .give =>
    match l.maker, l.loader with
    | .sending ts, .idle => some ({ l with maker := .idle, loader := afterLoad [] ts }, d)
    | _, _ => none
  | .load fails =>
    match l.loader with
    | .loading done (t :: todo) =>
      match fails, d.read (l.view t) with
      | false, some c => some ({ l with loader := afterLoad (done ++ [t]) todo, loaded := l.loaded ++ [(t.id, c)] }, d)
      | _, _ => some ({ l with loader := .ended, failed := true }, d)
    | _ => none
  | .pass =>
    match l.loader, l.remover with
    | .sending ts, .idle => some ({ l with loader := .idle, remover := afterRemove ts false }, d)
    | _, _ => none
  | .rm fails =>
    match l.remover with
    | .removing (t :: todo) bad =>
      if !fails && d.exists (l.view t) then
        some ({ l with remover := afterRemove todo bad, removed := l.removed ++ [(t.id, l.view t)] }, d.remove (l.view t))
      else some ({ l with remover := afterRemove todo true, failed := true }, d)
    | _ => none
  | .endMaker =>
    match l.maker with
    | .idle => if l.input.isEmpty || l.loader == .ended then some ({ l with maker := .ended }, d) else none
    | .sending _ => if l.loader == .ended then some ({ l with maker := .ended }, d) else none
    | _ => none
  | .endLoader =>
    match l.loader with
    | .idle => if l.maker == .ended || l.remover == .ended then some ({ l with loader := .ended }, d) else none
    | .sending _ => if l.remover == .ended then some ({ l with loader := .ended }, d) else none
    | _ => none
  | .endRemover =>
    match l.remover with
    | .idle => if l.loader == .ended then some ({ l with remover := .ended }, d) else none
    | _ => none
  | .resume input =>
    if l.maker == .ended && l.loader == .ended && l.remover == .ended then
      some ({ l with maker := .idle, loader := .idle, remover := .idle, input := input, given := l.given ++ input }, d)
    else none

/-- All lanes (`2 W` of them, manager.go:87-119) on one file system, and files of others. -/
structure Sys where
  disk : Disk
  /-- files that were there before or that other programs have created -/
  others : Disk
  lanes : List Lane

inductive Ev where
  | lane (i : Nat) (a : Act)
  /-- another program creates a file -/
  | other (p c : Bytes)

def Sys.exec (s : Sys) : Ev → Option Sys
  | .lane i a =>
    match s.lanes[i]? with
    | some l => (l.exec s.disk a).map fun r => { s with disk := r.2, lanes := s.lanes.set i r.1 }
    | none => none
  | .other p c => if s.disk.exists p then none else some { s with disk := (p, c) :: s.disk, others := (p, c) :: s.others }

def Sys.run (s : Sys) : List Ev → Option Sys
  | [] => some s
  | e :: es => (s.exec e).bind fun s' => s'.run es

def Sys.init (files : Disk) (lanes : List (Kind × List (List Bytes))) : Sys := ⟨files, files, lanes.map fun p => Lane.new p.1 p.2⟩

end Fpki.TempFile
