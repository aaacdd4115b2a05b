import Verif.Model.FastCsv
import Verif.Model.Chains
import Verif.Model.CsvLoad

/-!
# Model of reading a CSV file into certificates: `cmd/ingest/csvSplitWorker.go`, `toChainWorker.go`, `toChainPtrWorker.go`

From the bytes of a file to the chains a worker passes on. The standard library is modelled as far as it is used here: `bufio.Reader.ReadBytes`,
`csv.Reader.Read` on one row, `base64.StdEncoding.Decode`, `strconv.ParseInt`, `time.Unix` and `Time.After`. SHA-256 (`H`) and X.509 parsing
(`parse`, `none` for an error, also one that ctx509 calls non-fatal: the code gives up for both) are parameters. Not modelled: gzip, log output,
the texts of errors, the channels between the stages (C36, C40, C85).
-/
namespace Fpki.Rows
open Fpki.FastCsv (comma quote indexByte)
open Fpki.Chains (X509)
open Fpki.Batch (lruContains lruAdd)

/-! ## The file -/

/-- csvSplitWorker.go:15-20 `line` -/
structure RawLine where
  cert : Bytes
  chain : Bytes
  exp : Bytes
  number : Nat
deriving DecidableEq, Repr

/-- The errors joined in csvSplitWorker.go:88-147. -/
inductive Cause where
  | read               -- csvSplitWorker.go:97-100 and 117-121: the reader failed
  | row (number : Nat) -- a row that cannot be parsed
  | unexpectedEOF      -- csvSplitWorker.go:111-115: such a row without a line end
  | close              -- csvSplitWorker.go:139-145
deriving DecidableEq, Repr

/-- csvSplitWorker.go:92-137: the loop, at line `no`, with the rest of the file. `bad`: after `content` the reader fails (otherwise: EOF).
The result: the lines sent and `finalErr`. `ReadBytes` returns everything up to and with the first line end, or the rest and an error. -/
def readLines (csv : Bytes → Option (List Bytes)) (bad : Bool) (no : Nat) (content : Bytes) : List RawLine × List Cause :=
  match h : indexByte 10 content with
  | some i =>
    match FastCsv.parseLine csv (content.take (i + 1)) with
    | none => ([], (if bad then [.read] else []) ++ [.row no])
    | some f =>
      let r := readLines csv bad (no + 1) (content.drop (i + 1))
      (⟨f.1, f.2.1, f.2.2, no⟩ :: r.1, r.2)
  | none =>
    if bad then ([], [.read])
    else if content = [] then ([], [])
    else match FastCsv.parseLine csv content with
      | none => ([], [.unexpectedEOF, .row no])
      | some f => ([⟨f.1, f.2.1, f.2.2, no⟩], [])
termination_by content.length
decreasing_by
  rw [List.length_drop]
  have : content ≠ [] := by rintro rfl; cases h
  have := List.length_pos_iff.2 this
  omega

/-- csvSplitWorker.go:68-152 `startReadingLines`, for a file that could be opened: the lines that go through the channel `lines` and the
error that goes through `done`. -/
def readFile (csv : Bytes → Option (List Bytes)) (bad closeFails : Bool) (content : Bytes) : List RawLine × List Cause :=
  let r := readLines csv bad 1 content
  (r.1, r.2 ++ if closeFails then [.close] else [])

/-! ## `encoding/csv` -/

/-- `csv.Reader.readRecord`: a field that began with a quote, from after the quote. The value and the rest after the comma (`none`: the record ends
here); `none`: ErrQuote. -/
def csvQuoted : Bytes → Option (Bytes × Option Bytes)
  | [] => none
  | [c] => if c = quote then some ([], none) else none
  | c :: d :: r =>
    if c = quote then
      (if d = quote then (csvQuoted r).map fun p => (quote :: p.1, p.2)
      else if d = comma then some ([], some r)
      else none)
    else (csvQuoted (d :: r)).map fun p => (c :: p.1, p.2)

theorem csvQuoted_length : ∀ (b : Bytes) (f r : Bytes), csvQuoted b = some (f, some r) → r.length < b.length
  | [], _, _, h => by cases h
  | [c], _, _, h => by
    unfold csvQuoted at h; split at h <;> simp at h
  | c :: d :: r0, f, r, h => by
    unfold csvQuoted at h
    split at h
    · split at h
      · cases hq : csvQuoted r0 with
        | none => rw [hq] at h; cases h
        | some p =>
          rw [hq] at h
          simp only [Option.map_some, Option.some.injEq, Prod.mk.injEq] at h
          have := csvQuoted_length r0 p.1 r (by rw [hq, ← h.2])
          simp only [List.length_cons]; omega
      · split at h
        · simp only [Option.some.injEq, Prod.mk.injEq] at h
          rw [← h.2]; simp only [List.length_cons]; omega
        · cases h
    · cases hq : csvQuoted (d :: r0) with
      | none => rw [hq] at h; cases h
      | some p =>
        rw [hq] at h
        simp only [Option.map_some, Option.some.injEq, Prod.mk.injEq] at h
        have := csvQuoted_length (d :: r0) p.1 r (by rw [hq, ← h.2])
        simp only [List.length_cons] at this ⊢; omega

/-- `csv.Reader.readRecord`, the loop over the fields, for the settings of fastcsv.go:147-148 (comma, no lazy quotes, no trimming) and a record
without line breaks (`ReadBytes` stops at them and `TrimRight` removes those at the end). -/
def csvFields (row : Bytes) : Option (List Bytes) :=
  if row.head? = some quote then
    match h : csvQuoted row.tail with
    | none => none
    | some (f, none) => some [f]
    | some (f, some rest) => (csvFields rest).map (f :: ·)
  else
    if quote ∈ row.takeWhile (· != comma) then none
    else
      match h : row.dropWhile (· != comma) with
      | [] => some [row.takeWhile (· != comma)]
      | _ :: rest => (csvFields rest).map (row.takeWhile (· != comma) :: ·)
termination_by row.length
decreasing_by
  · have := csvQuoted_length _ _ _ h
    rw [List.length_tail] at this
    omega
  · have := congrArg List.length h
    have := (List.dropWhile_suffix (l := row) (· != comma)).length_le
    simp only [List.length_cons] at *
    omega

/-- `csv.Reader.Read` on a row; an empty one is skipped, which leaves io.EOF. -/
def csvRead (row : Bytes) : Option (List Bytes) := if row = [] then none else csvFields row

/-! ## The fields -/

/-- toChainWorker.go:169-187 `splitSemicolonField`: the loop; `cur` is `field[start:i]`. -/
def splitLoop (cur : Bytes) : Bytes → List Bytes
  | [] => [cur]
  | c :: r => if c = 59 then cur :: splitLoop [] r else splitLoop (cur ++ [c]) r

/-- toChainWorker.go:169-187 `splitSemicolonField` -/
def splitSemicolon (field : Bytes) : List Bytes := splitLoop [] field

/-- toChainWorker.go:190-198 `decodeBase64Field`: `StdEncoding.Decode` skips line breaks, wants padding and does not look at the unused bits. -/
def decodeField (field : Bytes) : Option Bytes := CsvLoad.decodeGroups (field.filter fun c => !(c == 13 || c == 10))

/-- The number written in decimal digits; `none` for other characters. -/
def digitsVal (acc : Nat) : Bytes → Option Nat
  | [] => some acc
  | c :: r => if FastCsv.isDigit c then digitsVal (acc * 10 + (c.toNat - 48)) r else none

/-- `strconv.ParseInt(s, 10, 64)` -/
def parseInt64 (s : Bytes) : Option Int :=
  let sign := s.head?
  let ds := if sign = some 43 ∨ sign = some 45 then s.tail else s
  if ds = [] then none
  else match digitsVal 0 ds with
    | none => none
    | some n =>
      if sign = some 45 then (if n ≤ 2 ^ 63 then some (-n) else none)
      else if n < 2 ^ 63 then some n else none

/-- toChainWorker.go:154-166 `getExpiration` -/
def getExpiration (field : Bytes) : Option Int :=
  match indexByte 46 field with
  | none => none
  | some dot => if dot = 0 ∨ dot = field.length - 1 then none else parseInt64 (field.take dot)

/-- `time.Now()`: seconds since 1970 and nanoseconds. -/
structure Now where
  sec : Nat
  nsec : Nat
deriving Repr

/-- Two's complement. -/
def wrap64 (x : Int) : Int := (x + 2 ^ 63) % 2 ^ 64 - 2 ^ 63

/-- Seconds from year 1 to 1970: `unixToInternal` of package time. -/
def epoch : Int := 62135596800

/-- `now.After(time.Unix(n, 0))`: time.Unix adds `unixToInternal`, After compares the seconds since year 1. -/
def after (now : Now) (n : Int) : Bool :=
  let s := wrap64 (n + epoch)
  s < now.sec + epoch || (s == now.sec + epoch && 0 < now.nsec)

/-! ## The workers -/

/-- updater/manager.go `Stats`, the counters of this stage. -/
structure Stats where
  readRows : Nat
  expired : Nat
  readBytes : Nat
  readCerts : Nat
  uncached : Nat
deriving DecidableEq, Repr

/-- The results of `parseLine`: `nil, nil`; an error; or a `certChain`: the leaf (Cert, CertID) and the pairs of ChainPayloads and ChainIDs. -/
inductive Outcome where
  | skip
  | error
  | chain (leaf : X509) (payloads : List (Option X509)) (ids : List Bytes)
deriving DecidableEq, Repr

/-- What a worker keeps: its cache and the counters. -/
structure W where
  cache : List Bytes
  stats : Stats
deriving DecidableEq, Repr

/-- toChainWorker.go:120-142 and toChainPtrWorker.go:88-113: the loop over the chain. `none`: an error; the worker is left as it was then. -/
def chainLoop (H : Bytes → Bytes) (parse : Bytes → Option X509) (size : Nat) (w : W) : List Bytes → W × Option (List (Option X509) × List Bytes)
  | [] => (w, some ([], []))
  | s :: ss =>
    match decodeField s with
    | none => (w, none)
    | some raw =>
      let w1 := { w with stats := { w.stats with readBytes := w.stats.readBytes + raw.length, readCerts := w.stats.readCerts + 1 } }
      if lruContains w1.cache (H raw) then
        let r := chainLoop H parse size w1 ss
        (r.1, r.2.map fun p => (none :: p.1, H raw :: p.2))
      else match parse raw with
        | none => (w1, none)
        | some c =>
          let w2 : W := ⟨lruAdd size w1.cache (H raw), { w1.stats with uncached := w1.stats.uncached + 1 }⟩
          let r := chainLoop H parse size w2 ss
          (r.1, r.2.map fun p => (some c :: p.1, H raw :: p.2))

/-- From the parsed leaf on: toChainWorker.go:109-150, toChainPtrWorker.go:78-121. -/
def parseRest (H : Bytes → Bytes) (parse : Bytes → Option X509) (size : Nat) (now : Now) (w : W) (l : RawLine) (raw : Bytes) : W × Outcome :=
  match parse raw with
  | none => (w, .error)
  | some cert =>
    if after now cert.notAfter then (w, .skip)
    else
      let r := chainLoop H parse size w (splitSemicolon l.chain)
      (r.1, match r.2 with
        | none => .error
        | some p => .chain cert p.1 p.2)

/-- toChainWorker.go:67-150 `parseLine` of the worker used by ingest. -/
def parseLine (H : Bytes → Bytes) (parse : Bytes → Option X509) (size : Nat) (now : Now) (w : W) (l : RawLine) : W × Outcome :=
  match getExpiration l.exp with
  | none => (w, .error)
  | some n =>
    let w := { w with stats := { w.stats with readRows := w.stats.readRows + 1, readCerts := w.stats.readCerts + 1 } }
    if after now n then ({ w with stats := { w.stats with expired := w.stats.expired + 1 } }, .skip)
    else match decodeField l.cert with
      | none => (w, .error)
      | some raw =>
        let w := { w with stats := { w.stats with readBytes := w.stats.readBytes + raw.length } }
        if lruContains w.cache (H raw) then (w, .skip)
        else parseRest H parse size now { w with stats := { w.stats with uncached := w.stats.uncached + 1 } } l raw

/-- toChainPtrWorker.go:47-121 `parseLine` of the worker with pointers. -/
def parseLinePtr (H : Bytes → Bytes) (parse : Bytes → Option X509) (size : Nat) (now : Now) (w : W) (l : RawLine) : W × Outcome :=
  match getExpiration l.exp with
  | none => (w, .error)
  | some n =>
    let w := { w with stats := { w.stats with readRows := w.stats.readRows + 1 } }
    if after now n then (w, .skip)
    else match decodeField l.cert with
      | none => (w, .error)
      | some raw =>
        let w := { w with stats := { w.stats with readBytes := w.stats.readBytes + raw.length, readCerts := w.stats.readCerts + 1, uncached := w.stats.uncached + 1 } }
        if lruContains w.cache (H raw) then (w, .skip)
        else parseRest H parse size now w l raw

/-- One worker and the stage after it (chainToCertWorker.go:17-36, as in C35): the lines it gets, until the first error (the stage then stops,
stage.go). The certificates and whether there was an error. -/
def worker (H : Bytes → Bytes) (parse : Bytes → Option X509) (size : Nat) (now : Now) (w : W) : List RawLine → List Chains.Out × Bool
  | [] => ([], false)
  | l :: ls =>
    match parseLine H parse size now w l with
    | (_, .error) => ([], true)
    | (w', .skip) => worker H parse size now w' ls
    | (w', .chain leaf ps ids) =>
      let r := worker H parse size now w' ls
      (Chains.certsFromChain H leaf ps ids ++ r.1, r.2)

end Fpki.Rows
