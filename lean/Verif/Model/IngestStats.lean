import Verif.Model.Rows
import Verif.Model.PipeCheck

/-!
# Model of the progress line of ingest: `cmd/ingest/main.go:218-256`, `pkg/statistics/stats.go`, `pkg/pipeline/join.go:14-80`

The counters of `statistics.Stats` are shared by all workers and by the goroutine that prints them every two seconds (stats.go:51-60), and each is an atomic variable of its own. The workers are those of
`Rows` (`toChainWorker.go:67-150`); here their single increments are what happens at a time, in any interleaving with the loads of the printer.
Simplifications: time, bytes per second, the ticker, and the text around the numbers are left out; the numbers are exact (`Rat`) instead of `float64`.
-/
namespace Fpki.IngestStats
open Fpki.Rows (RawLine Now W Stats Outcome decodeField getExpiration after splitSemicolon parseLine)
open Fpki.Chains (X509)
open Fpki.Batch (lruContains lruAdd)
open Fpki.PipeCheck (Kind)

/-- One atomic increment of stats.go:10-25. -/
inductive Inc where
  | rows
  | certs
  | bytes (n : Nat)
  | uncached
  | expired
deriving DecidableEq, Repr

/-- `Add` of stats.go:10-25. -/
def apply (s : Stats) : Inc → Stats
  | .rows => { s with readRows := s.readRows + 1 }
  | .certs => { s with readCerts := s.readCerts + 1 }
  | .bytes n => { s with readBytes := s.readBytes + n }
  | .uncached => { s with uncached := s.uncached + 1 }
  | .expired => { s with expired := s.expired + 1 }

/-- toChainWorker.go:120-142: the increments of the loop over the chain, in their order. -/
def chainTrace (H : Bytes → Bytes) (parse : Bytes → Option X509) (size : Nat) : List Bytes → List Bytes → List Inc
  | _, [] => []
  | cache, s :: ss =>
    match decodeField s with
    | none => []
    | some raw =>
      .bytes raw.length :: .certs ::
        (if lruContains cache (H raw) then chainTrace H parse size cache ss
        else match parse raw with
          | none => []
          | some _ => .uncached :: chainTrace H parse size (lruAdd size cache (H raw)) ss)

/-- toChainWorker.go:67-150: the increments of `parseLine`, in their order. -/
def rowTrace (H : Bytes → Bytes) (parse : Bytes → Option X509) (size : Nat) (now : Now) (cache : List Bytes) (l : RawLine) : List Inc :=
  match getExpiration l.exp with
  | none => []
  | some n =>
    .rows :: .certs ::
      (if after now n then [.expired]
      else match decodeField l.cert with
        | none => []
        | some raw =>
          .bytes raw.length ::
            (if lruContains cache (H raw) then []
            else .uncached :: (match parse raw with
              | none => []
              | some cert => if after now cert.notAfter then [] else chainTrace H parse size cache (splitSemicolon l.chain))))

/-- toChainWorker.go:48-62: the increments of a worker for the lines that it gets, until the first error (the stage then stops). -/
def workerTrace (H : Bytes → Bytes) (parse : Bytes → Option X509) (size : Nat) (now : Now) (w : W) : List RawLine → List Inc
  | [] => []
  | l :: ls =>
    rowTrace H parse size now w.cache l ++
      match parseLine H parse size now w l with
      | (_, .error) => []
      | (w', _) => workerTrace H parse size now w' ls

/-- What `printStats` has loaded, main.go:221-230 (`none`: not yet). -/
structure Shown where
  readRows : Option Nat
  readCerts : Option Nat
  uncached : Option Nat
  expired : Option Nat
deriving DecidableEq, Repr

/-- main.go:222, 224, 229, 230: the loads, in their order. -/
def load (s : Stats) (p : Shown) : Shown :=
  if p.readRows = none then { p with readRows := some s.readRows }
  else if p.readCerts = none then { p with readCerts := some s.readCerts }
  else if p.uncached = none then { p with uncached := some s.uncached }
  else if p.expired = none then { p with expired := some s.expired }
  else p

/-- The counters, the increments that each worker has still to do, and one call of `printStats` (main.go:218-252). -/
structure St where
  stats : Stats
  todo : List (List Inc)
  shown : Shown
deriving DecidableEq, Repr

/-- Steps of the workers (toChainWorker.go:67-150) and of the printer (main.go:218-252). -/
inductive Ev where
  | work (i : Nat)
  | load
deriving DecidableEq, Repr

/-- One step: toChainWorker.go:67-150, main.go:218-252. -/
def exec (s : St) : Ev → Option St
  | .work i =>
    match s.todo[i]? with
    | some (x :: xs) => some { s with stats := apply s.stats x, todo := s.todo.set i xs }
    | _ => none
  | .load => some { s with shown := load s.stats s.shown }

/-- A sequence of steps: toChainWorker.go:67-150, main.go:218-252. -/
def execs (s : St) : List Ev → Option St
  | [] => some s
  | e :: es => (exec s e).bind (execs · es)

/-- stats.go:33-49 and processor.go:186-189: the start, with the lines that each worker will get. -/
def St.init (H : Bytes → Bytes) (parse : Bytes → Option X509) (size : Nat) (now : Now) (parts : List (List RawLine)) : St :=
  ⟨⟨0, 0, 0, 0, 0⟩, parts.map (workerTrace H parse size now ⟨[], ⟨0, 0, 0, 0, 0⟩⟩), ⟨none, none, none, none⟩⟩

/-- main.go:254-259 -/
def safeDivide (n d : Rat) : Rat := if d ≤ 0 then 0 else n / d

/-- main.go:241: "uncached payloads", in percent. -/
def uncachedPercent (readCerts uncached : Nat) : Rat := safeDivide (uncached * 100) readCerts

/-- main.go:242: "expired rows", in percent. -/
def expiredPercent (readRows expired : Nat) : Rat := safeDivide (expired * 100) readRows

/-! ## The number of certificates written -/

/-- A stage: its kind, and whether its function adds to `WrittenCerts` (processor.go:273-283: the sink of the pipeline of files does; no stage of updater/manager.go:83-190 does). -/
structure Stage where
  kind : Kind
  counts : Bool
deriving DecidableEq, Repr

/-- pipeline/join.go:14-62 `JoinPipelinesRaw`: the stages of the joined pipeline; all others are never resumed. -/
def joinRaw (ps : List (List Stage)) : List Stage :=
  match ps with
  | [] => []
  | [p] => p
  | p :: rest =>
    p.filter (fun s => s.kind ≠ .sink) ++
      (rest.dropLast.flatMap (fun q => q.filter (fun s => s.kind ≠ .source ∧ s.kind ≠ .sink))) ++
      ((rest.getLast?.getD []).filter (fun s => s.kind ≠ .source))

/-- processor.go:172-219: the pipeline from files to certificates, with `n` stages between source and sink. -/
def filesPipeline (n : Nat) : List Stage := ⟨.source, false⟩ :: (List.replicate n ⟨.stage, false⟩ ++ [⟨.sink, true⟩])

/-- `WrittenCerts` after the stages with these indices have processed a value each (processor.go:277, 292). -/
def written (stages : List Stage) (processed : List Nat) : Nat := (processed.filter (fun i => (stages[i]?.map (·.counts)).getD false)).length

/-! ## The number of rows -/

/-- util/csv_files.go:18-25 `EstimateCertCount`, for the indices in the name of a file (first ≤ last: csv_files.go:56). -/
def estimate (indices : Nat × Nat) : Nat := indices.2 - indices.1 + 1

/-- cmd/ingest/run.go:207-219: `TotalRows`. -/
def totalRows (files : List (Nat × Nat)) : Nat := files.foldl (fun n f => n + estimate f) 0

end Fpki.IngestStats
