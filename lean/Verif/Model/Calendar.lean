import Verif.Model.PolicyCert
import Verif.Model.Config
/-!
The text of a `time.Time` in JSON (RFC 3339 with nanoseconds), as package time writes and reads it for the times of policy certificates (pkg/common/policies.go:55-62, embedded_policies.go:20).
-/
namespace Fpki.Calendar

open Fpki.Json (digit)
open Fpki.Config (pad skipChar nanoseconds)
open Fpki.Policy (Time)

/-- A day of the (proleptic Gregorian) calendar. -/
structure Date where
  year : Int
  month : Nat
  day : Nat
deriving DecidableEq, Repr

/-- policies.go:55-62, package time `absDate`: the date of a day, counted from 1970-01-01. Cycles of 400 years, of 100, of 4 and of one, years beginning in March (the code begins them in January and then skips the leap day). -/
def civil (z : Int) : Date :=
  let w := z + 719468
  let era := w / 146097
  let doe := (w % 146097).toNat
  let c := min (doe / 36524) 3
  let r := doe - c * 36524
  let q := r / 1461
  let r2 := r % 1461
  let y1 := min (r2 / 365) 3
  let doy := r2 - y1 * 365
  let yoe := 100 * c + 4 * q + y1
  let mp := (5 * doy + 2) / 153
  let d := doy - (153 * mp + 2) / 5 + 1
  let m := if mp < 10 then mp + 3 else mp - 9
  ⟨era * 400 + (yoe : Int) + (if m ≤ 2 then 1 else 0), m, d⟩

/-- policies.go:55-62, package time `Date`: the number of the day from 1970-01-01 on. -/
def dayNumber (t : Date) : Int :=
  let y := t.year - (if t.month ≤ 2 then 1 else 0)
  let mp := if t.month ≤ 2 then t.month + 9 else t.month - 3
  365 * y + y / 4 - y / 100 + y / 400 + (((153 * mp + 2) / 5 + t.day : Nat) : Int) - 1 - 719468

/-- package time `isLeap` -/
def isLeap (y : Int) : Bool := y % 4 = 0 && (y % 100 ≠ 0 || y % 400 = 0)

/-- package time `daysIn` -/
def daysIn (m : Nat) (y : Int) : Nat :=
  if m = 2 then (if isLeap y then 29 else 28)
  else if m = 4 ∨ m = 6 ∨ m = 9 ∨ m = 11 then 30
  else 31

/-- package time `appendNano`, `stdFracSecond9`: `w` digits without the trailing zeros. -/
def fracDigits : Nat → Nat → Bytes
  | 0, _ => []
  | w + 1, n => if n % 10 = 0 then fracDigits w (n / 10) else pad (w + 1) n

/-- Nanoseconds of a day. -/
def dayNs : Int := 86400000000000

/-- policies.go:55-62, package time `Time.MarshalJSON`, `appendStrictRFC3339`, without the quotes: an error for years outside of 0 to 9999 and for zones of 24 hours or more. Seconds of the offset are not shown. -/
def timeText (t : Time) : Option Bytes :=
  let loc := t.ns + t.off * 1000000000
  let date := civil (loc / dayNs)
  let n := (loc % dayNs).toNat
  let sec := n / 1000000000
  let zone := t.off.tdiv 60
  if date.year < 0 ∨ 9999 < date.year then none
  else if 24 ≤ zone.natAbs / 60 then none
  else
    some (pad 4 date.year.toNat ++ 45 :: pad 2 date.month ++ 45 :: pad 2 date.day ++ 84 :: pad 2 (sec / 3600) ++ 58 :: pad 2 (sec / 60 % 60) ++ 58 :: pad 2 (sec % 60) ++
      (if n % 1000000000 = 0 then [] else 46 :: fracDigits 9 (n % 1000000000)) ++
      (if t.off = 0 then [90] else (if zone < 0 then 45 else 43) :: pad 2 (zone.natAbs / 60) ++ 58 :: pad 2 (zone.natAbs % 60)))

/-- package time `parseRFC3339`, `parseUint`: `k` digits in the given range, and the rest. -/
def takeNum (k lo hi : Nat) (s : Bytes) : Option (Nat × Bytes) :=
  if (s.take k).length = k then
    match Rows.digitsVal 0 (s.take k) with
    | none => none
    | some n => if lo ≤ n ∧ n ≤ hi then some (n, s.drop k) else none
  else none

/-- package time `parseRFC3339`: the fraction, if there is one, and the rest. -/
def takeFraction : Bytes → Option (Nat × Bytes)
  | c :: d :: t =>
    if c = 46 ∧ digit d = true then (nanoseconds ((d :: t).takeWhile digit)).map fun n => (n, (d :: t).dropWhile digit)
    else some (0, c :: d :: t)
  | s => some (0, s)

/-- package time `parseRFC3339`: the zone, in seconds; nothing may follow. -/
def parseZone (s : Bytes) : Option Int :=
  if s = [90] then some 0
  else
    match s with
    | [] => none
    | c :: s =>
      match takeNum 2 0 23 s with
      | none => none
      | some (hr, s) =>
        match skipChar 58 s with
        | none => none
        | some s =>
          match takeNum 2 0 59 s with
          | none => none
          | some (mm, s) =>
            if s ≠ [] then none
            else if c = 45 then some (-((hr * 60 + mm) * 60 : Nat))
            else if c = 43 then some ((hr * 60 + mm) * 60 : Nat)
            else none

/-- policies.go:55-62, package time `Time.UnmarshalJSON`, `parseStrictRFC3339`, for the text between the quotes. Only `parseRFC3339` is modelled: that `Parse` may accept more is left out. -/
def parseTime (s : Bytes) : Option Time :=
  match takeNum 4 0 9999 s with
  | none => none
  | some (y, s) =>
    match skipChar 45 s with
    | none => none
    | some s =>
      match takeNum 2 1 12 s with
      | none => none
      | some (m, s) =>
        match skipChar 45 s with
        | none => none
        | some s =>
          match takeNum 2 1 (daysIn m y) s with
          | none => none
          | some (d, s) =>
            match skipChar 84 s with
            | none => none
            | some s =>
              match takeNum 2 0 23 s with
              | none => none
              | some (hh, s) =>
                match skipChar 58 s with
                | none => none
                | some s =>
                  match takeNum 2 0 59 s with
                  | none => none
                  | some (mi, s) =>
                    match skipChar 58 s with
                    | none => none
                    | some s =>
                      match takeNum 2 0 59 s with
                      | none => none
                      | some (sec, s) =>
                        match takeFraction s with
                        | none => none
                        | some (ns, s) =>
                          match parseZone s with
                          | none => none
                          | some off =>
                            some ⟨dayNumber ⟨y, m, d⟩ * dayNs + (((hh * 60 + mi) * 60 + sec) * 1000000000 + ns : Nat) - off * 1000000000, off, 0, none⟩

end Fpki.Calendar
