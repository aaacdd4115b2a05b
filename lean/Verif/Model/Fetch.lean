import Verif.Model.Bytes

/-!
# Model of the log fetchers: `pkg/mapserver/logfetcher/{httplogfetcher,locallogfetcher}.go`

The CT server is a function from the number of the query and its range to an answer, so it may answer the same query differently each time.
Parsing of entries is an arbitrary function. Indices are natural numbers (the code uses int64; overflow is not modelled). The `stopping` flag is not set while
fetching (the transition system in Model/Updater.lean deals with a fetch that is abandoned).
-/
namespace Fpki.Fetch

/-- How a function of the fetcher ends. `loop`: not within the given number of queries. -/
inductive Out (α : Type) where
  | ok (a : α) (calls : Nat)
  | err (calls : Nat)
  | panic
  | loop

/-- A CT server: number of the query, start, end ↦ the entries, or an error. -/
abbrev Server (ε : Type) := Nat → Nat → Nat → Option (List ε)

/-- httplogfetcher.go:326-329: copying the answer into the slice. -/
def writeAt (buf : List α) (off : Nat) (l : List α) : List α := buf.take off ++ l ++ buf.drop (off + l.length)

/-- httplogfetcher.go:310-334 `getRawEntries`: the loop at a given offset. Writing outside of the slice panics. -/
def getRawEntries (srv : Server ε) (start stop : Nat) : Nat → Nat → List ε → Nat → Out (List ε)
  | 0, _, _, _ => .loop
  | fuel + 1, calls, buf, off =>
    if off < stop + 1 - start then
      match srv calls (start + off) stop with
      | none => .err (calls + 1)
      | some l =>
        if off + l.length ≤ buf.length then getRawEntries srv start stop fuel (calls + 1) (writeAt buf off l) (off + l.length)
        else .panic
    else .ok buf calls

/-- httplogfetcher.go:272-286: the loop over the full server batches, `k` of them left, starting with the `i`-th. -/
def batchLoop (srv : Server ε) (sb fuel start : Nat) : Nat → Nat → Nat → List ε → Out (List ε)
  | 0, _, calls, buf => .ok buf calls
  | k + 1, i, calls, buf =>
    match getRawEntries srv (start + i * sb) (start + i * sb + sb - 1) fuel calls ((buf.drop (i * sb)).take sb) 0 with
    | .ok part calls => batchLoop srv sb fuel start k (i + 1) calls (writeAt buf (i * sb) part)
    | .err c => .err c
    | .panic => .panic
    | .loop => .loop

/-- httplogfetcher.go:258-303 `getRawEntriesInBatches`; the result is the buffer, of which the first
`stop - start + 1` entries are valid. -/
def getRawEntriesInBatches (srv : Server ε) (sb fuel calls : Nat) (buf : List ε) (start stop : Nat) : Out (List ε) :=
  let batchCount := (stop + 1 - start) / sb
  match batchLoop srv sb fuel start batchCount 0 calls buf with
  | .ok buf calls =>
    let remStart := batchCount * sb + start
    if stop ≥ remStart then
      match getRawEntries srv remStart stop fuel calls ((buf.drop (batchCount * sb)).take (stop + 1 - start - batchCount * sb)) 0 with
      | .ok part calls => .ok (writeAt buf (batchCount * sb) part) calls
      | .err c => .err c
      | .panic => .panic
      | .loop => .loop
    else .ok buf calls
  | .err c => .err c
  | .panic => .panic
  | .loop => .loop

/-- How the goroutine ends. -/
inductive End where
  | done
  | panic
  | loop
deriving DecidableEq

/-- httplogfetcher.go:185-251 `fetch`, the loop: the results sent (`none` is an error), and how it ends. `k` iterations are left. -/
def fetchLoop (srv : Server ε) (parse : ε → Option γ) (sb pb fuel start stop : Nat) : Nat → Nat → Nat → List ε → List (Option (List γ)) × End
  | 0, _, _, _ => ([], .done)
  | k + 1, i, calls, buf =>
    let s := start + i * pb
    let e := min stop (s + pb - 1)
    match getRawEntriesInBatches srv sb fuel calls buf s e with
    | .err _ => ([none], .done)
    | .panic => ([], .panic)
    | .loop => ([], .loop)
    | .ok buf calls =>
      match (buf.take (e + 1 - s)).mapM parse with
      | none => ([none], .done)
      | some certs =>
        let r := fetchLoop srv parse sb pb fuel start stop k (i + 1) calls buf
        (some certs :: r.1, r.2)

/-- httplogfetcher.go:185-251 `fetch`. `zero` is the zero value of an entry. -/
def fetch (srv : Server ε) (parse : ε → Option γ) (zero : ε) (sb pb fuel start stop : Nat) : List (Option (List γ)) × End :=
  if start > stop then ([], .done)
  else fetchLoop srv parse sb pb fuel start stop (1 + (stop - start) / pb) 0 0 (List.replicate pb zero)

/-! ## The local fetcher -/

/-- locallogfetcher.go:77-82 `CsvFileInfo` -/
structure File where
  path : Bytes
  start : Int
  stop : Int
deriving DecidableEq, Repr

/-- locallogfetcher.go:46 `achievableStateMap` -/
abbrev StateMap := Int → Option (List File)

/-- locallogfetcher.go:470-477 `getGzFileChain`; `none` if it does not return within `fuel` calls. The lists in the map are never
empty. -/
def getGzFileChain (m : StateMap) : Nat → Int → Option (List File)
  | 0, _ => none
  | fuel + 1, start =>
    match m start with
    | none => some []
    | some entry =>
      match entry.getLast? with
      | none => none
      | some f => (getGzFileChain m fuel (f.stop + 1)).map (entry ++ ·)

/-- locallogfetcher.go:117-122: one file per start; `none` if starts are not unique. -/
def singles : List File → StateMap → Option StateMap
  | [], m => some m
  | f :: fs, m => if (m f.start).isSome then none else singles fs (fun s => if s = f.start then some [f] else m s)

/-- locallogfetcher.go:125-127: the loop over the map, whose order is arbitrary: `order` are its keys. -/
def extendAll (fuel : Nat) : List Int → StateMap → Option StateMap
  | [], m => some m
  | s :: order, m =>
    match getGzFileChain m fuel s with
    | none => none
    | some c => extendAll fuel order (fun s' => if s' = s then some c else m s')

/-- locallogfetcher.go:115-127 in `Initialize`: from the files found to the map of chains; `order` is the order in which the loop visits the keys of the map. -/
def initMap (files : List File) (order : List Int) (fuel : Nat) : Option StateMap :=
  (singles files (fun _ => none)).bind (extendAll fuel order)

/-- locallogfetcher.go:146-152: the loop of `GetCurrentState`, with `i > 0` as `rest`. -/
def targetLoop (last max : Int) : Bool → List File → Int → Int
  | _, [], t => t
  | rest, f :: fs, t => if rest && decide (f.stop - last + 1 > max) then t else targetLoop last max true fs (f.stop + 1)

/-- locallogfetcher.go:142-162 `GetCurrentState`. -/
def getCurrentState (m : StateMap) (max last : Int) : Int :=
  match m last with
  | some entries => targetLoop last max false entries 0
  | none => last

/-- locallogfetcher.go:166-175 `StartFetching`: the requested files. -/
def requestedFiles (m : StateMap) (start stop : Int) : List File :=
  ((m start).getD []).takeWhile (fun f => !decide (f.stop > stop))

/-- locallogfetcher.go:69-75: one parsed row; `none` if expired. -/
abbrev Row (γ : Type) := Option γ

/-- logfetcher.go:30-35 `result` without error -/
structure Result (γ : Type) where
  certs : List γ
  expired : Nat

/-- locallogfetcher.go:420-430: adding one row. -/
def Result.add (r : Result γ) : Row γ → Result γ
  | none => { r with expired := r.expired + 1 }
  | some c => { r with certs := r.certs ++ [c] }

/-- locallogfetcher.go:417-441: the batcher: the results it sends for the rows it receives. -/
def localBatches (pb : Nat) : Nat → Result γ → List (Row γ) → List (Result γ)
  | size, r, [] => if size > 0 then [r] else []
  | size, r, x :: xs =>
    if size + 1 ≥ pb then r.add x :: localBatches pb 0 ⟨[], 0⟩ xs
    else localBatches pb (size + 1) (r.add x) xs

end Fpki.Fetch
