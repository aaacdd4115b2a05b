import Verif.Model.Ingest

/-!
# Model of `pkg/util`: errors.go, sort.go, math.go, slice.go, deduplicateSlice.go, duration.go,
time_wrap.go

A Go slice is a list; an operation that would panic (index out of range) is `none`.
-/
namespace Fpki.Util
open Fpki.Ingest (Str isDig digitsVal showNat)

/-! ## errors.go -/

/-- Go errors as `ErrorsCoalesce` sees them: `nil`, any error that is not a `CoalescedErrors` (known by
its message), or a `CoalescedErrors` value (errors.go:27-29) with its children. -/
inductive Err where
  | nil
  | plain (msg : Str)
  | coalesced (errs : List Err)

mutual
/-- errors.go:54-71 `addError`. The accumulated errors are given by their messages: they never are
`nil` nor `CoalescedErrors`. -/
def addError (acc : List Str) : Err → List Str
  | .nil => acc
  | .plain m => if acc.contains m then acc else acc ++ [m]
  | .coalesced es => addErrors acc es
/-- The loops at errors.go:17-20 and 60-62. -/
def addErrors (acc : List Str) : List Err → List Str
  | [] => acc
  | e :: es => addErrors (addError acc e) es
end

/-- errors.go:15-25 `ErrorsCoalesce`. -/
def errorsCoalesce (errs : List Err) : Err :=
  match addErrors [] errs with
  | [] => .nil
  | ms => .coalesced (ms.map .plain)

/-- errors.go:33-47 `CoalescedErrors.Error` (and `Error` of a plain error). `none`: calling `Error` on
nil panics. -/
def joinLines : List Str → Str
  | [] => []
  | [m] => m
  | m :: ms => m ++ '\n' :: joinLines ms

/-- errors.go:33-47, given the messages of the children. -/
def coalescedText (ms : List Str) : Str :=
  match ms with
  | [] => []
  | [m] => m
  | _ => "multiple (".toList ++ showNat ms.length ++ ") errors:\n".toList ++ joinLines ms

/-! ## sort.go -/

/-- `a[i], a[j] = a[j], a[i]` -/
def swap (a : List α) (i j : Nat) : Option (List α) :=
  match a[i]?, a[j]? with
  | some x, some y => some ((a.set i y).set j x)
  | _, _ => none

/-- sort.go:25-30: the loop piling smaller elements on the left; `n` iterations remain. -/
def pile (lt : α → α → Bool) (right : Nat) : Nat → Nat → Nat → List α → Option (Nat × List α)
  | 0, _, left, a => some (left, a)
  | n + 1, i, left, a =>
    match a[i]?, a[right]? with
    | some x, some p =>
      if lt x p then
        match swap a i left with
        | some a' => pile lt right n (i + 1) (left + 1) a'
        | none => none
      else pile lt right n (i + 1) left a
    | _, _ => none

/-- sort.go:10-39 `Qsort`, in place; `rnd k` is the result of the `k`-th call of `rand.Int`; the second
result is the number of calls made. `fuel` bounds the recursion depth: `none` if it is exceeded. -/
def qsortAux (lt : α → α → Bool) (rnd : Nat → Nat) : Nat → Nat → List α → Option (List α × Nat)
  | 0, _, _ => none
  | fuel + 1, k, a =>
    if a.length < 2 then some (a, k)
    else do
      let right := a.length - 1
      let a1 ← swap a (rnd k % a.length) right
      let (left, a2) ← pile lt right a1.length 0 0 a1
      let a3 ← swap a2 left right
      let (l, k1) ← qsortAux lt rnd fuel (k + 1) (a3.take left)
      let (r, k2) ← qsortAux lt rnd fuel k1 (a3.drop (left + 1))
      let m ← a3[left]?
      some (l ++ m :: r, k2)

/-- sort.go:10 `Qsort`: the recursion needs at most one level per element. -/
def qsort (lt : α → α → Bool) (rnd : Nat → Nat) (a : List α) : Option (List α) :=
  (qsortAux lt rnd (a.length + 1) 0 a).map (·.1)

/-! ## math.go -/

/-- math.go:7-19 `Pow` for an integer type of `w` bits (signed or unsigned: same bits). Floats are not
modelled. -/
def pow (x : BitVec w) (n : Nat) : BitVec w :=
  if n = 0 then 1
  else if n = 1 then x
  else
    let y := pow x (n / 2)
    if n % 2 = 0 then y * y else x * y * y
termination_by n

/-- math.go:28-30: number of right shifts until zero. -/
def bitLen (n : Nat) : Nat := if n = 0 then 0 else bitLen (n >>> 1) + 1
termination_by n
decreasing_by simp [Nat.shiftRight_succ]; omega

/-- math.go:24-33 `Log2`. -/
def log2 (n : Nat) : Nat := if n = 0 then 0 else bitLen (n - 1)

/-! ## deduplicateSlice.go -/

/-- deduplicateSlice.go:111-113 and 55-57: `CopyElem(to, from)` on every other slice. -/
def copyElems (to src : Nat) : List (List β) → Option (List (List β))
  | [] => some []
  | s :: ss =>
    match s[src]?, copyElems to src ss with
    | some x, some ss' => some (s.set to x :: ss')
    | _, _ => none

/-- deduplicateSlice.go:97-117: the loop of `makeUnique`. The master slice holds the values compared
(`WithSlice(master)`); `slaves` are the other slices. `seen` is the map. `fuel` = number of loop
iterations allowed. -/
def uniqLoop [DecidableEq κ] : Nat → Nat → List κ → List κ → List (List β) → Option (List κ × List (List β))
  | 0, _, _, _, _ => none
  | fuel + 1, i, seen, master, slaves =>
    if i < master.length then
      match master[i]? with
      | none => none
      | some e =>
        if e ∉ seen then uniqLoop fuel (i + 1) (e :: seen) master slaves
        else
          let last := master.length - 1
          match master[last]?, copyElems i last slaves with
          | some x, some slaves' => uniqLoop fuel i seen ((master.set i x).take last) slaves'
          | _, _ => none
    else some (master, slaves)

/-- deduplicateSlice.go:77-124 `makeUnique` (via `DeduplicateSlice`, lines 11-17). An empty master
returns at once without resizing the slaves (lines 86-89). Slicing a slave beyond its length is allowed
by Go up to its capacity; here `take` (the slaves are required to be as long as the master). -/
def deduplicate [DecidableEq κ] (master : List κ) (slaves : List (List β)) :
    Option (List κ × List (List β)) :=
  match master with
  | [] => some ([], slaves)
  | e :: _ =>
    match uniqLoop (master.length + 1) 1 [e] master slaves with
    | some (m, ss) => some (m, ss.map (·.take m.length))
    | none => none

/-! ## slice.go -/

/-- slice.go:6-10 `RemoveElemFromSlice`. -/
def removeElem (l : List α) (i : Nat) : Option (List α) :=
  match l[l.length - 1]? with
  | some x => if i < l.length then some ((l.set i x).take (l.length - 1)) else none
  | none => none

/-- slice.go:34-40: the inner loop looking for the end-most element that stays; `fuel` iterations. -/
def findStay (idx : List Nat) (i : Int) : Nat → Int → Int → Option (Int × Int)
  | 0, _, _ => none
  | fuel + 1, j, toStay =>
    if j ≥ i then
      match idx[j.toNat]? with
      | none => none
      | some s => if (s : Int) < toStay then some (j, toStay) else findStay idx i fuel (j - 1) (toStay - 1)
    else some (j, toStay)

/-- slice.go:31-45: the outer loop. -/
def removeLoop (idx : List Nat) (newLen : Int) : Nat → Int → Int → Int → List α → Option (List α)
  | 0, _, _, _, _ => none
  | fuel + 1, i, j, toStay, l =>
    if i ≤ j ∧ i < newLen then
      match findStay idx i (idx.length + 1) j toStay with
      | none => none
      | some (j', t) =>
        match idx[i.toNat]? with
        | none => none
        | some d =>
          if 0 ≤ t then
            match l[t.toNat]? with
            | some x => if d < l.length then removeLoop idx newLen fuel (i + 1) j' (t - 1) (l.set d x) else none
            | none => none
          else none
    else some l

/-- slice.go:16-47 `RemoveElementsFromSlice`. `rnd` are the random numbers used by `Qsort`. -/
def removeElements (rnd : Nat → Nat) (l : List α) (indices : List Nat) : Option (List α) :=
  if indices.length ≥ l.length then some []
  else do
    let idx ← qsort (fun a b => decide (a < b)) rnd indices
    let j : Int := (idx.length : Int) - 1
    let r ← removeLoop idx ((l.length : Int) - idx.length) (idx.length + 1) 0 j
      ((l.length : Int) - 0 - idx.length + j) l
    some (r.take (l.length - idx.length))

/-- slice.go:49-60 `ResizeSlice`. -/
def resize (l : List α) (n : Nat) (fill : α) : List α :=
  if l.length < n then l ++ List.replicate (n - l.length) fill else l.take n

/-! ## duration.go -/

/-- Wrap-around of `int64`. -/
def wrap64 (x : Int) : Int := (x + 2 ^ 63) % 2 ^ 64 - 2 ^ 63

/-- duration.go:24-28 and package time: nanoseconds per unit. -/
def unitNs : Str → Option Int
  | ['y'] => some (3600000000000 * 24 * 365)
  | ['w'] => some (3600000000000 * 24 * 7)
  | ['d'] => some (3600000000000 * 24)
  | ['h'] => some 3600000000000
  | ['m'] => some 60000000000
  | ['s'] => some 1000000000
  | ['m', 's'] => some 1000000
  | ['u', 's'] => some 1000
  | ['µ', 's'] => some 1000
  | ['n', 's'] => some 1
  | _ => none

/-- `strconv.Atoi`, value only (the error is ignored by duration.go:49): 0 on a syntax error, the
nearest `int64` when out of range. -/
def atoiValue (s : Str) : Int :=
  let (neg, ds) := match s with
    | '-' :: t => (true, t)
    | '+' :: t => (false, t)
    | t => (false, t)
  if ds.isEmpty || !ds.all isDig then 0
  else
    let v := digitsVal ds
    if neg then (if v > 2 ^ 63 then -(2 ^ 63) else -(v : Int))
    else (if v ≥ 2 ^ 63 then 2 ^ 63 - 1 else v)

/-- duration.go:33 `[\-0-9]` -/
def isNumChar (c : Char) : Bool := c == '-' || isDig c

/-- duration.go:43-75 `ParseDuration` (regexp of line 33 unfolded: the units do not start with a
character of the first group). -/
def parseDuration (s : Str) : Option Int :=
  let num := s.takeWhile isNumChar
  let unit := s.dropWhile isNumChar
  if num.isEmpty then none
  else (unitNs unit).map (fun u => wrap64 (atoiValue num * u))

/-- `%d` of an `int64`. -/
def showInt (i : Int) : Str := if i < 0 then '-' :: showNat i.natAbs else showNat i.natAbs

/-- duration.go:97-114: the unit chosen (first factor that divides). -/
def fmtUnit (ns : Int) : Str × Int :=
  if ns.tmod (3600000000000 * 24 * 365) = 0 then (['y'], 3600000000000 * 24 * 365)
  else if ns.tmod (3600000000000 * 24 * 7) = 0 then (['w'], 3600000000000 * 24 * 7)
  else if ns.tmod (3600000000000 * 24) = 0 then (['d'], 3600000000000 * 24)
  else if ns.tmod 3600000000000 = 0 then (['h'], 3600000000000)
  else if ns.tmod 60000000000 = 0 then (['m'], 60000000000)
  else if ns.tmod 1000000000 = 0 then (['s'], 1000000000)
  else if ns.tmod 1000000 = 0 then (['m', 's'], 1000000)
  else if ns.tmod 1000 = 0 then (['u', 's'], 1000)
  else (['n', 's'], 1)

/-- duration.go:77-116 `FmtDuration`. -/
def fmtDuration (ns : Int) : Str :=
  if ns = 0 then ['0', 's']
  else showInt (ns.tdiv (fmtUnit ns).2) ++ (fmtUnit ns).1

/-! ## time_wrap.go -/

/-- Nanoseconds of a day. -/
def dayNs : Int := 86400000000000

/-- time_wrap.go:91-107 `NextTimeOfDay`. Instants are nanoseconds since the Unix epoch (UTC, no leap
seconds, as in package time). `t` is the instant held by the TimeOfDayWrap (in UTC), `off` the offset of
the local zone at `now`: `now.Year(), now.Month(), now.Day()` are those of the local date, but the result
is built with `time.UTC`. The conversion of a date to (year, month, day) and back is the identity, so it
is represented by the number of the day. -/
def nextTimeOfDay (off t now : Int) : Int :=
  if ¬ t < now then t
  else
    let next := (now + off) / dayNs * dayNs + t % dayNs
    if ¬ next < now then next else next + dayNs

end Fpki.Util
