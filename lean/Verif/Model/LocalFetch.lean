import Verif.Model.Fetch
import Verif.Model.Rows

/-!
# Model of the goroutines of the local log fetcher: `pkg/mapserver/logfetcher/locallogfetcher.go`

From `StartFetching` to `NextBatch` returning false: the goroutine that sends the requested files, the file readers, the parsers of each file, the
goroutine that makes batches, the one that prints errors, and the caller of `NextBatch`. One run: `Initialize` and `StartFetching` are called once. Rows are
what `csv.Reader.ReadAll` returns (`File`). Simplifications: the context of `NextBatch` does not end; an unbuffered send and its receive are one step.
-/
namespace Fpki.LocalFetch
open Fpki.Fetch (Row Result localBatches)
open Fpki.Chains (X509)

/-! ## One row -/

/-- locallogfetcher.go:379-394 `getExpiration`: the last column, in two parts separated by a dot. -/
def getExpiration (field : Bytes) : Option Int :=
  if field.count 46 = 1 then Rows.parseInt64 (field.takeWhile (· != 46)) else none

/-- locallogfetcher.go:317-331: the loop over the chain -/
def parseChain (parse : Bytes → Option X509) : List Bytes → Option (List X509)
  | [] => some []
  | s :: ss =>
    match (Rows.decodeField s).bind parse with
    | none => none
    | some c => (parseChain parse ss).map (c :: ·)

/-- locallogfetcher.go:281-340 `parseFunction`: the row sent on `certWithChainChan`, with `none` for an expired one. The outer `none`: an error or an index
out of range; both end the program (line 358 panics with the error). IDs are not modelled: nothing reads them. -/
def parseFields (parse : Bytes → Option X509) (now : Rows.Now) (fields : List Bytes) : Option (Row (X509 × List X509)) :=
  match getExpiration (fields.getLastD []) with
  | none => none
  | some n =>
    if Rows.after now n then some none
    else match fields[3]? with
      | none => none
      | some certField =>
        match (Rows.decodeField certField).bind parse with
        | none => none
        | some cert =>
          if Rows.after now cert.notAfter then some none
          else match fields[4]? with
            | none => none
            | some chainField =>
              match parseChain parse (Rows.splitSemicolon chainField) with
              | none => none
              | some chain => some (some (cert, chain))

/-! ## The goroutines -/

/-- A requested file: it cannot be opened; it is not valid CSV or cannot be read to its end (`ReadAll`, locallogfetcher.go:362-365); or it has these records, and
closing it may fail. -/
inductive File (α : Type) where
  | openFails
  | readFails
  | records (rows : List α) (closeFails : Bool)

/-- The records of a file. -/
def File.rows : File α → List α
  | .records rows _ => rows
  | _ => []

/-- A file reader (locallogfetcher.go:402-408, 259-275, 277-375): waiting for a file; with the records still to be handed to the parsers and the rows
the parsers have made but not sent (`none`: a parser waits for a record); about to send an error; ended. -/
inductive Reader (α γ : Type) where
  | idle
  | file (rest : List α) (parsers : List (Option (Row γ))) (closeFails : Bool)
  | failing
  | finished

/-- The goroutine that makes batches (locallogfetcher.go:416-450): receiving, with `currentSize` and `r`; sending a full batch; sending the last one; ended, with
`chanResults` closed. -/
inductive Coll (γ : Type) where
  | recv (size : Nat) (r : Result γ)
  | flush (r : Result γ)
  | last (r : Result γ)
  | ended

structure St (α γ : Type) where
  todo : List (File α)         -- the files StartFetching's goroutine has still to send
  readers : List (Reader α γ)
  coll : Coll γ
  chan : List (Result γ)       -- in the channel chanResults
  out : List (Result γ)        -- returned by NextBatch and ReturnNextBatch
  over : Bool                  -- NextBatch returned false
  printed : Nat                -- errors printed by processErrorChannel
  leaked : Nat                 -- parsers that wait for ever (line 363 returns without closing recordsChan)
  panicked : Bool
  seen : List (Row γ)          -- history: the rows received by the goroutine that makes batches

/-- What happens next. -/
inductive Ev where
  | take (k : Nat)          -- reader k receives a file
  | stop (k : Nat)          -- reader k sees that incomingFileCh is closed
  | feed (k p : Nat)        -- parser p of reader k receives a record
  | emit (k p : Nat)        -- parser p of reader k sends its row
  | fileDone (k : Nat)      -- all records sent and all parsers done
  | report (k : Nat)        -- reader k sends its error, which is printed
  | flush                   -- a batch enters chanResults
  | stopColl                -- certWithChainChan is closed
  | next                    -- NextBatch

/-- `numReaders` = NumFileReaders, `numParsers` = NumParsers, `pb` = processBatchSize, `cap` = preloadCount -/
structure Conf where
  numReaders : Nat
  numParsers : Nat
  pb : Nat
  cap : Nat

/-- locallogfetcher.go:96-128, 164-195: after Initialize and StartFetching. -/
def init (c : Conf) (files : List (File α)) : St α γ :=
  { todo := files, readers := List.replicate c.numReaders .idle, coll := .recv 0 ⟨[], 0⟩, chan := [], out := [], over := false, printed := 0, leaked := 0,
    panicked := false, seen := [] }

/-- locallogfetcher.go:259-275, 343-365: a reader that has received a file. -/
def startFile (c : Conf) : File α → Reader α γ
  | .openFails => .failing
  | .readFails => .failing
  | .records rows closeFails => .file rows (List.replicate c.numParsers none) closeFails

/-- locallogfetcher.go:420-436: a row is received. -/
def collect (c : Conf) (size : Nat) (r : Result γ) (x : Row γ) : Coll γ := if size + 1 ≥ c.pb then .flush (r.add x) else .recv (size + 1) (r.add x)

/-- locallogfetcher.go:362-365: the parsers of a file that cannot be read wait for ever. -/
def File.leaks (c : Conf) : File α → Nat
  | .readFails => c.numParsers
  | _ => 0

/-- The reader has ended: `wg.Done` in locallogfetcher.go:403. -/
def Reader.isFinished : Reader α γ → Bool
  | .finished => true
  | _ => false

/-- One step. After a panic there is none. -/
def exec (c : Conf) (parse : α → Option (Row γ)) (s : St α γ) : Ev → Option (St α γ)
  | .take k =>
    if s.panicked then none else
    match s.readers[k]?, s.todo with
    | some .idle, f :: fs =>
      some { s with todo := fs, readers := s.readers.set k (startFile c f), leaked := s.leaked + f.leaks c }
    | _, _ => none
  | .stop k =>
    if s.panicked then none else
    match s.readers[k]?, s.todo with
    | some .idle, [] => some { s with readers := s.readers.set k .finished }
    | _, _ => none
  | .feed k p =>
    if s.panicked then none else
    match s.readers[k]? with
    | some (.file (a :: rest) ps cf) =>
      match ps[p]?, parse a with
      | some none, none => some { s with panicked := true }
      | some none, some x => some { s with readers := s.readers.set k (.file rest (ps.set p (some x)) cf) }
      | _, _ => none
    | _ => none
  | .emit k p =>
    if s.panicked then none else
    match s.readers[k]?, s.coll with
    | some (.file rest ps cf), .recv size r =>
      match ps[p]? with
      | some (some x) =>
        some { s with readers := s.readers.set k (.file rest (ps.set p none) cf), coll := collect c size r x, seen := s.seen ++ [x] }
      | _ => none
    | _, _ => none
  | .fileDone k =>
    if s.panicked then none else
    match s.readers[k]? with
    | some (.file [] ps cf) =>
      if ps.all Option.isNone then some { s with readers := s.readers.set k (if cf then .failing else .idle) } else none
    | _ => none
  | .report k =>
    if s.panicked then none else
    match s.readers[k]? with
    | some .failing => some { s with readers := s.readers.set k .idle, printed := s.printed + 1 }
    | _ => none
  | .flush =>
    if s.panicked then none else
    if s.chan.length < c.cap then
      match s.coll with
      | .flush r => some { s with coll := .recv 0 ⟨[], 0⟩, chan := s.chan ++ [r] }
      | .last r => some { s with coll := .ended, chan := s.chan ++ [r] }
      | _ => none
    else none
  | .stopColl =>
    if s.panicked then none else
    match s.coll with
    | .recv size r =>
      if s.readers.all Reader.isFinished then some { s with coll := if size > 0 then .last r else .ended } else none
    | _ => none
  | .next =>
    if s.panicked || s.over then none else
    match s.chan, s.coll with
    | r :: rs, _ =>
      -- locallogfetcher.go:215-222: an empty result would be taken for the end
      if r.certs.isEmpty && r.expired == 0 then some { s with chan := rs, over := true } else some { s with chan := rs, out := s.out ++ [r] }
    | [], .ended => some { s with over := true }
    | [], _ => none

/-- Executions from `s`. -/
inductive Run (c : Conf) (parse : α → Option (Row γ)) (s : St α γ) : St α γ → Prop
  | refl : Run c parse s s
  | step {t u : St α γ} (e : Ev) : Run c parse s t → exec c parse t e = some u → Run c parse s u

end Fpki.LocalFetch
