import Verif.Model.Bytes

/-!
# The numbers printed by the benchmark of coalescing

Models the order of the runs and the summaries of `cmd/bench-coalesce/main.go`.

Simplifications: floating point numbers are exact (rational numbers); the results hold the elapsed nanoseconds, from which the rates are computed; the key `size/variant` of the map of
summaries is the pair (no name of a size contains a slash); `p * float64(len(sorted)-1)` for the percentiles 0.25, 0.5 and 0.75 is computed in quarters.
-/
namespace Fpki.BenchStats

/-- The names of main.go:78, 84. -/
inductive Which where
  | old
  | new
deriving DecidableEq, Repr

/-- The part of main.go:155-167 `runResult` that is summarised. -/
structure Result where
  size : Bytes
  variant : Which
  elapsed : Nat
deriving DecidableEq, Repr

/-- main.go:568-573 `pairOrder`. -/
def pairOrder (pair : Nat) : List Which := if pair % 2 = 0 then [.old, .new] else [.new, .old]

/-- main.go:488-502 `runMeasuredPairs`; `run pair step` is the outcome of `runFullSample` (`none`: an error). -/
def runMeasuredPairs (size : Bytes) (run : Nat → Nat → Which → Option Nat) (pairs : Nat) : Option (List Result) :=
  (List.range pairs).foldlM (fun results pair =>
    ((pairOrder pair).zipIdx).foldlM (fun results v => (run pair v.2 v.1).map (fun e => results ++ [⟨size, v.1, e⟩])) results) []

/-- main.go:1095-1104: the results of a size and a variant. -/
def grouped (results : List Result) (size : Bytes) (v : Which) : List Result := results.filter (fun r => r.size == size && r.variant == v)

/-- main.go:1173-1179: `int(math.Round(p * float64(n-1)))`, cut at the end; `k` quarters. -/
def percentileIndex (k n : Nat) : Nat :=
  let index := (2 * k * (n - 1) + 4) / 8
  if n ≤ index then n - 1 else index

/-- main.go:1166-1181 `percentileDuration`. -/
def percentileDuration (sorted : List Nat) (k : Nat) : Nat :=
  match sorted with
  | [] => 0
  | [x] => x
  | _ => sorted.getD (percentileIndex k sorted.length) 0

/-- `sort.Slice` of main.go:1151, 1160. -/
def sortNat (values : List Nat) : List Nat := values.mergeSort (fun a b => decide (a ≤ b))

/-- main.go:1146-1153 `medianDuration`. -/
def medianDuration (values : List Nat) : Nat := if values.length = 0 then 0 else percentileDuration (sortNat values) 2

/-- main.go:1155-1164 `iqrDuration` (a difference of signed durations). -/
def iqrDuration (values : List Nat) : Int := if values.length = 0 then 0 else (percentileDuration (sortNat values) 3 : Int) - percentileDuration (sortNat values) 1

/-- main.go:1183-1194 `medianFloat64`. -/
def medianFloat64 (values : List Rat) : Rat :=
  if values.length = 0 then 0
  else
    let sorted := values.mergeSort (fun a b => decide (a ≤ b))
    let index := sorted.length / 2
    if sorted.length % 2 = 1 then sorted.getD index 0 else (sorted.getD (index - 1) 0 + sorted.getD index 0) / 2

/-- main.go:945-946: domains per second. -/
def rate (count : Nat) (elapsed : Nat) : Rat := (count : Rat) * 1000000000 / (elapsed : Rat)

/-- main.go:1106-1124: the median of a group (0 if there is none). -/
def groupMedian (results : List Result) (size : Bytes) (v : Which) : Nat := medianDuration ((grouped results size v).map Result.elapsed)

/-- main.go:1115, 1121: the median rate of a group. -/
def groupRate (dirty : Nat) (results : List Result) (size : Bytes) (v : Which) : Rat := medianFloat64 ((grouped results size v).map (fun r => rate dirty r.elapsed))

/-- main.go:1128-1144 `buildPairDeltas`: size, both medians and the percentage. -/
def buildPairDeltas (results : List Result) (sizes : List Bytes) : List (Bytes × Nat × Nat × Rat) :=
  sizes.filterMap (fun size =>
    let o := groupMedian results size .old
    let n := groupMedian results size .new
    if o = 0 ∨ n = 0 then none else some (size, o, n, (((o : Int) - (n : Int) : Int) : Rat) / (o : Rat) * 100))

end Fpki.BenchStats
