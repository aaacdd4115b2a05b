import Verif.Model.Bytes
import Verif.Model.Util

/-!
# Model of the batching and extraction stages: `pkg/mapserver/updater/baseworker.go`,
`certsWorker.go`, `domainWorker.go`, and the sharding of `manager.go` / `pkg/db/mysql/mysql.go`

Go slices are modelled with their backing arrays: a slice is an array address, a length and a capacity, so
that overwriting a batch that is still being read by the next stage is visible.
-/
namespace Fpki.Batch

/-- A Go slice header. -/
structure Slice where
  addr : Nat
  len : Nat
  cap : Nat
deriving DecidableEq, Repr

/-- Backing arrays; `none` is the zero value of the element type. -/
abbrev Heap (α : Type) := Nat → Nat → Option α

/-- The elements a reader of the slice sees. -/
def read (h : Heap α) (s : Slice) : List (Option α) := (List.range s.len).map (h s.addr)

/-- baseworker.go:17 `ringCacheN`. -/
def ringCacheN : Nat := 3

/-- baseworker.go:19-22 `ringCache`, with the heap and the next unused array address. -/
structure Ring (α : Type) where
  heap : Heap α
  next : Nat
  cur : Nat
  elems : Nat → Slice

/-- baseworker.go:24-30 `newRingCache`: three empty slices with their own arrays of the given capacity. -/
def newRing (α : Type) (cap : Nat) : Ring α :=
  { heap := fun _ _ => none, next := ringCacheN, cur := 0, elems := fun i => { addr := i, len := 0, cap := cap } }

/-- baseworker.go:32-34 `current`. -/
def Ring.current (r : Ring α) : Slice := r.elems r.cur

/-- Replace one of the ring's slices. -/
def Ring.setElem (r : Ring α) (i : Nat) (s : Slice) : Ring α :=
  { r with elems := fun j => if j = i then s else r.elems j }

/-- baseworker.go:40-42 `addElem`: Go's `append`. With spare capacity it writes in place, otherwise it
copies to a new array (the new capacity, doubled here, does not matter). -/
def Ring.addElem (r : Ring α) (x : α) : Ring α :=
  let s := r.current
  if s.len < s.cap then
    { r.setElem r.cur { s with len := s.len + 1 } with
      heap := fun a i => if a = s.addr ∧ i = s.len then some x else r.heap a i }
  else
    { r.setElem r.cur { addr := r.next, len := s.len + 1, cap := 2 * s.cap + 1 } with
      heap := fun a i =>
        if a = r.next then
          if i < s.len then r.heap s.addr i else if i = s.len then some x else none
        else r.heap a i
      next := r.next + 1 }

/-- baseworker.go:44-52 `rotate`: go to the next slice, clear it, and empty it. -/
def Ring.rotate (r : Ring α) : Ring α :=
  let c := (r.cur + 1) % ringCacheN
  let s := r.elems c
  { r.setElem c { s with len := 0 } with
    cur := c
    heap := fun a i => if a = s.addr ∧ i < s.len then none else r.heap a i }

/-- What the process function of a batcher does with one input: certsWorker.go:53-65 and
domainWorker.go:49-61. `some` is the batch to send. -/
def batchAdd (size : Nat) (r : Ring α) (x : α) : Ring α × Option Slice :=
  let r' := r.addElem x
  if r'.current.len = size then (r'.rotate, some r'.current) else (r', none)

/-- certsWorker.go:66-70: the last, possibly empty, batch of the certificate batcher. -/
def certEnd (r : Ring α) : Ring α × Option Slice := (r.rotate, some r.current)

/-- domainWorker.go:62-70: the last batch of the domain batcher, only if it is not empty. -/
def domainEnd (r : Ring α) : Ring α × Option Slice :=
  if 0 < r.current.len then (r.rotate, some r.current) else (r, none)

/-! ## The batcher and the next stage, as a transition system

Both are stages with their own goroutine, connected by one unbuffered channel (manager.go:250-256 and
284-290, stage.go:391-513). The batcher runs its process function, which rotates the ring, and then
blocks until the next stage takes the batch; the next stage (certBatchToCsv, domainsToCsvs) reads the
batch at any time while it processes it and only then takes another one. -/

/-- What the batcher's goroutine is doing: waiting for input, or blocked sending a batch (stage.go:476). -/
inductive Prod where
  | filling
  | sending (s : Slice) (last : Bool)
  | done
deriving DecidableEq, Repr

/-- What the next stage is doing: waiting for a batch, or processing one. -/
inductive Cons where
  | idle
  | working (s : Slice)
deriving DecidableEq, Repr

/-- A state of the two stages; `input` is what the batcher still receives, `seen` what each batch
contained when the next stage started and `got` what it contained when it had finished. -/
structure Sys (α : Type) where
  ring : Ring α
  prod : Prod
  cons : Cons
  input : List α
  seen : List (List (Option α))
  got : List (List (Option α))

/-- Start, with all the input to come: newCertBatcher (certsWorker.go:45-47) and newDomainBatcher
(domainWorker.go:33-36) create rings with room for a batch. -/
def Sys.init (size : Nat) (input : List α) : Sys α :=
  { ring := newRing α size, prod := .filling, cons := .idle, input := input, seen := [], got := [] }

/-- Steps of the two goroutines. `fin` is the end function (`certEnd` or `domainEnd`). -/
inductive Step (size : Nat) (fin : Ring α → Ring α × Option Slice) : Sys α → Sys α → Prop
  /-- The batcher takes an input that does not fill the batch. -/
  | add (s : Sys α) (x : α) (rest : List α) (r : Ring α) (hp : s.prod = .filling) (hi : s.input = x :: rest)
      (hb : batchAdd size s.ring x = (r, none)) :
      Step size fin s { s with ring := r, input := rest }
  /-- The batcher takes an input that fills the batch: it rotates and starts sending. -/
  | emit (s : Sys α) (x : α) (rest : List α) (r : Ring α) (b : Slice) (hp : s.prod = .filling)
      (hi : s.input = x :: rest) (hb : batchAdd size s.ring x = (r, some b)) :
      Step size fin s { s with ring := r, input := rest, prod := .sending b false }
  /-- No more data, nothing left to send. -/
  | endNone (s : Sys α) (r : Ring α) (hp : s.prod = .filling) (hi : s.input = [])
      (hb : fin s.ring = (r, none)) : Step size fin s { s with ring := r, prod := .done }
  /-- No more data: the last batch. -/
  | endSend (s : Sys α) (r : Ring α) (b : Slice) (hp : s.prod = .filling) (hi : s.input = [])
      (hb : fin s.ring = (r, some b)) : Step size fin s { s with ring := r, prod := .sending b true }
  /-- The next stage takes the batch from the channel; the batcher goes on. -/
  | handoff (s : Sys α) (b : Slice) (last : Bool) (hp : s.prod = .sending b last) (hc : s.cons = .idle) :
      Step size fin s { s with
        prod := if last then .done else .filling, cons := .working b, seen := s.seen ++ [read s.ring.heap b] }
  /-- The next stage finishes its batch. -/
  | finish (s : Sys α) (b : Slice) (hc : s.cons = .working b) :
      Step size fin s { s with cons := .idle, got := s.got ++ [read s.ring.heap b] }

/-- Every schedule. -/
inductive Run (size : Nat) (fin : Ring α → Ring α × Option Slice) : Sys α → Sys α → Prop
  | refl (s : Sys α) : Run size fin s s
  | step {s t u : Sys α} : Run size fin s t → Step size fin t u → Run size fin s u

/-! ## Domain extraction and sharding -/

/-- types.go `Certificate` as far as the extractors need it: ID and names. -/
structure Cert where
  id : Bytes
  names : List Bytes
deriving DecidableEq, Repr

/-- types.go `DirtyDomain`. -/
structure DirtyDomain where
  domainID : Bytes
  certID : Bytes
  name : Bytes
deriving DecidableEq, Repr

/-- lru_cache.go: the LRU cache of hashicorp/golang-lru as a list, most recently used first. `Contains`
does not change the order. -/
def lruContains (c : List Bytes) (id : Bytes) : Bool := c.contains id

/-- lru_cache.go:31-35 `AddIDs` with one ID: moves or adds it to the front, evicting the oldest entry when
there are more than `size`. -/
def lruAdd (size : Nat) (c : List Bytes) (id : Bytes) : List Bytes := (id :: c.erase id).take size

/-- certsWorker.go:104-121: the loop over the names of one certificate; `H` is SHA-256, the cache is
shared by all extractors. Simplification: looking an ID up and adding it is one step (a race between two
extractors can only emit the same domain twice). -/
def extractNames (H : Bytes → Bytes) (size : Nat) (certID : Bytes) : List Bytes → List Bytes → List Bytes × List DirtyDomain
  | cache, [] => (cache, [])
  | cache, n :: ns =>
    if lruContains cache (H n) then extractNames H size certID cache ns
    else
      let (cache', out) := extractNames H size certID (lruAdd size cache (H n)) ns
      (cache', ⟨H n, certID, n⟩ :: out)

/-- All certificates of a run, in the order in which the extractors process them. -/
def extractAll (H : Bytes → Bytes) (size : Nat) : List Bytes → List Cert → List DirtyDomain
  | _, [] => []
  | cache, c :: cs =>
    let (cache', out) := extractNames H size c.id cache c.names
    out ++ extractAll H size cache' cs

/-- manager.go:15 `domainIdCacheSize`. -/
def domainIdCacheSize : Nat := 10000

/-- mysql.go:42-44 `PartitionByIdMSB`: `id[0] >> (8 - byte(nBits))`; the subtraction is on bytes and wraps,
a shift by 8 or more gives 0. -/
def partitionByIdMSB (id : Bytes) (nBits : Nat) : Nat :=
  (id.getD 0 0).toNat >>> ((8 + 256 - nBits % 256) % 256)

/-- mysql.go:53-59 `NumBitsForPartitionCount`. -/
def numBitsForPartitionCount (n : Nat) : Nat := Util.bitLen (n - 1)

/-- manager.go:46-50: the worker chosen for an ID. -/
def shard (workers : Nat) (id : Bytes) : Nat := partitionByIdMSB id (Util.log2 workers)

/-- manager.go:87-93: the output channels of the source for a certificate. -/
def sourceChannels (workers : Nat) (certID : Bytes) : List Nat := [shard workers certID, shard workers certID + workers]

end Fpki.Batch
