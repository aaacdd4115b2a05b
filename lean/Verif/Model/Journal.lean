/-!
# Model of `cmd/ingest/journal/journal.go`: completed-index intervals

Go's `uint` is 64 bit.  Endpoints are natural numbers with the 64-bit wrap-around of `+1`
written explicitly.  Slices are lists.
-/
namespace Fpki.Journal

/-- 2^64, the modulus of Go's `uint`. -/
abbrev W : Nat := 18446744073709551616

/-- journal.go:65-69 `Interval` (inclusive range of certificate indices). -/
structure Interval where
  start : Nat
  stop : Nat
deriving Repr, DecidableEq, Inhabited

/-- Go's `x + 1` on `uint` (wraps at 2^64). -/
def inc64 (x : Nat) : Nat := (x + 1) % W

/-- journal.go:613-615 `canMerge`. -/
def canMerge (a b : Interval) : Bool :=
  decide (a.start ≤ inc64 b.stop) && decide (b.start ≤ inc64 a.stop)

/-- journal.go:618-623 `mergeIntervals`. -/
def mergeIntervals (a b : Interval) : Interval :=
  ⟨min a.start b.start, max a.stop b.stop⟩

/-- The loop of Go's `slices.BinarySearchFunc` with the comparison of journal.go:579-588 and
632-641 (by `Start` only): least index in `[i,j)` whose start is not below `t`. -/
def bsearch (l : List Interval) (t : Nat) (i j : Nat) : Nat :=
  if h : i < j then
    let m := (i + j) / 2
    if (l.getD m default).start < t then bsearch l t (m + 1) j
    else bsearch l t i m
  else i
termination_by j - i

/-- `idx` result of `slices.BinarySearchFunc(intervals, interval, …)`. -/
def searchIdx (l : List Interval) (x : Interval) : Nat := bsearch l x.start 0 l.length

/-- journal.go:599-602: the loop consuming following intervals; works on the suffix starting at
the insertion index. Returns the merged interval and the remaining suffix. -/
def absorb (x : Interval) : List Interval → Interval × List Interval
  | [] => (x, [])
  | y :: ys => if canMerge x y then absorb (mergeIntervals x y) ys else (x, y :: ys)

/-- journal.go:575-610 `appendInterval`. -/
def appendInterval (l : List Interval) (x : Interval) : List Interval :=
  let idx := searchIdx l x
  if idx > 0 && canMerge (l.getD (idx - 1) default) x then
    -- absorb the predecessor
    let x' := mergeIntervals (l.getD (idx - 1) default) x
    let l' := l.eraseIdx (idx - 1)
    let r := absorb x' (l'.drop (idx - 1))
    l'.take (idx - 1) ++ r.1 :: r.2
  else
    let r := absorb x (l.drop idx)
    l.take idx ++ r.1 :: r.2

/-- journal.go:627-650 `containsCompletedInterval`, for the list of one ingest directory. -/
def containsInterval (l : List Interval) (x : Interval) : Bool :=
  let idx := searchIdx l x
  if idx < l.length && (l.getD idx default).start == x.start then
    decide ((l.getD idx default).stop ≥ x.stop)
  else if idx == 0 then false
  else
    let c := l.getD (idx - 1) default
    decide (c.start ≤ x.start) && decide (c.stop ≥ x.stop)

/-- journal.go:519-544 `normalizeCompletedIndices` for the list of one directory: fails on an
inverted interval, otherwise re-inserts every interval. -/
def normalizeList : List Interval → List Interval → Option (List Interval)
  | acc, [] => some acc
  | acc, x :: xs => if x.start > x.stop then none else normalizeList (appendInterval acc x) xs

end Fpki.Journal
