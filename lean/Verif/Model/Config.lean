import Verif.Model.Json
import Verif.Model.Rows
import Verif.Model.Util
import Verif.Model.Domain
/-!
The configuration file of the map server (pkg/mapserver/config/config.go) and the two types with
their own text in it (pkg/util/time_wrap.go, pkg/util/duration_wrap.go).
-/
namespace Fpki.Config

open Fpki.Json Fpki.Domain

/-! ## time_wrap.go, time.go -/

/-- time_wrap.go:19-21 `TimeOfDayWrap`: the clock of the time (the date is always 0000-01-01 UTC for the constructor and for texts). -/
structure Tod where
  hour : Nat
  minute : Nat
  second : Nat
  ns : Nat
deriving DecidableEq, Repr

/-- time_wrap.go:24-41 `NewTimeOfDay` -/
def newTimeOfDay (hour minute second nanosecond : Nat) : Tod :=
  let hour := if hour > 23 then 23 else hour
  let minute := if minute > 59 then 59 else minute
  let second := if second > 59 then 59 else second
  let nanosecond := if nanosecond > 999999999 then 999999999 else nanosecond
  ⟨hour, minute, second, nanosecond⟩

/-- time_wrap.go:76-78: the loop, with a bound for the number of rounds (after three rounds the number is 0). -/
def decimalLoop : Nat → Nat → Nat → Nat
  | 0, _, count => count
  | f + 1, nanos, count => if nanos > 0 then decimalLoop f (nanos % 10 ^ (6 - count)) (count + 3) else count

/-- package time `appendInt`: a number with leading zeros. -/
def pad : Nat → Nat → Bytes
  | 0, _ => []
  | w + 1, n => pad w (n / 10) ++ [UInt8.ofNat (48 + n % 10)]

/-- time_wrap.go:72-87 `TimeOfDayWrap.String`: `Format` with "15:04:05" and zeros after a dot. -/
def todText (t : Tod) : Bytes :=
  let count := decimalLoop 4 t.ns 0
  pad 2 t.hour ++ 58 :: pad 2 t.minute ++ 58 :: pad 2 t.second ++ (if count > 0 then 46 :: (pad 9 t.ns).take count else [])

/-- package time `isDigit`, `getnum`: one or two digits (two if `fixed`), and the rest. -/
def getnum (fixed : Bool) : Bytes → Option (Nat × Bytes)
  | [] => none
  | [a] => if digit a then (if fixed then none else some (a.toNat - 48, [])) else none
  | a :: b :: t =>
    if digit a then
      if digit b then some ((a.toNat - 48) * 10 + (b.toNat - 48), t)
      else if fixed then none else some (a.toNat - 48, b :: t)
    else none

/-- package time `skip`, for one character. -/
def skipChar (c : Byte) : Bytes → Option Bytes
  | [] => none
  | b :: t => if b = c then some t else none

/-- package time `parseNanoseconds`: the digits after the separator. -/
def nanoseconds (ds : Bytes) : Option Nat := (Rows.digitsVal 0 (ds.take 9)).map (· * 10 ^ (9 - (ds.take 9).length))

/-- package time `parse`, after the seconds: an optional fraction that the layout does not mention, then nothing. -/
def parseFraction : Bytes → Option Nat
  | [] => some 0
  | [_] => none
  | c :: d :: t =>
    if (c = 46 ∨ c = 44) ∧ digit d then
      match nanoseconds ((d :: t).takeWhile digit) with
      | none => none
      | some n => if (d :: t).dropWhile digit = [] then some n else none
    else none

/-- time.go:18-24 `ParseTimeOfDay`: package time `parse` with the layout "15:04:05". -/
def parseTod (s : Bytes) : Option Tod :=
  match getnum false s with
  | none => none
  | some (h, s) =>
    if 24 ≤ h then none
    else
      match skipChar 58 s with
      | none => none
      | some s =>
        match getnum true s with
        | none => none
        | some (m, s) =>
          if 60 ≤ m then none
          else
            match skipChar 58 s with
            | none => none
            | some s =>
              match getnum true s with
              | none => none
              | some (sec, s) =>
                if 60 ≤ sec then none
                else
                  match parseFraction s with
                  | none => none
                  | some n => some ⟨h, m, sec, n⟩

/-! ## duration_wrap.go -/

/-- The bytes of a text of ASCII characters. -/
def bytesOf (s : Ingest.Str) : Bytes := s.map fun c => UInt8.ofNat c.toNat

/-- The characters of a UTF-8 text; only ASCII and `µ` matter, other bytes stand for some other characters. -/
def charsOf : Bytes → Ingest.Str
  | [] => []
  | [b] => [if b < 0x80 then Char.ofNat b.toNat else Char.ofNat (0x10000 + b.toNat)]
  | b :: c :: t => if b = 0xC2 ∧ c = 0xB5 then 'µ' :: charsOf t else (if b < 0x80 then Char.ofNat b.toNat else Char.ofNat (0x10000 + b.toNat)) :: charsOf (c :: t)

/-- duration_wrap.go:43-45 `MarshalText` -/
def durationText (d : Int) : Bytes := bytesOf (Util.fmtDuration d)

/-- duration_wrap.go:33-41 `UnmarshalText`, `Set` -/
def parseDurationText (s : Bytes) : Option Int := Util.parseDuration (charsOf s)

/-! ## config.go -/

/-- A Go map from strings to strings, as the list of its entries in the order of the keys. -/
abbrev StrMap := List (Bytes × Bytes)

/-- pkg/db/conf.go:6-11 `Configuration`; the map may be nil. -/
structure DbConf where
  dsn : Bytes
  dbName : Bytes
  values : Option StrMap
  checkSchema : Bool
deriving DecidableEq, Repr

/-- config.go:11-22 `Config`; slices, maps and the pointer may be nil. -/
structure Conf where
  urls : Option (List Bytes)
  folders : Option StrMap
  db : Option DbConf
  certFile : Bytes
  keyFile : Bytes
  port : Int
  maxRows : Nat
  updateAt : Tod
  updateTimer : Int
deriving DecidableEq, Repr

/-- Decimal digits. -/
def natText (n : Nat) : Bytes := if n < 10 then [UInt8.ofNat (48 + n)] else natText (n / 10) ++ [UInt8.ofNat (48 + n % 10)]

/-- `strconv.AppendInt` -/
def intText (i : Int) : Bytes := if i < 0 then 45 :: natText i.natAbs else natText i.natAbs

/-- encode.go `mapEncoder`: nil is null. -/
def mapJ : Option StrMap → J
  | none => .null
  | some m => .obj (m.map fun p => (p.1, .str p.2))

/-- encode.go `sliceEncoder`: nil is null. -/
def sliceJ : Option (List Bytes) → J
  | none => .null
  | some l => .arr (l.map .str)

/-- pkg/db/conf.go:6-11: the members of the database configuration. -/
def dbJ : Option DbConf → J
  | none => .null
  | some c => .obj [(asc "Dsn", .str c.dsn), (asc "DBName", .str c.dbName), (asc "Values", mapJ c.values), (asc "CheckSchema", .bool c.checkSchema)]

/-- config.go:11-22: the members of the configuration, in the order of the fields. -/
def confMembers (c : Conf) : List (Bytes × J) :=
  [(asc "CTLogServerURLs", sliceJ c.urls), (asc "CertificateFolders", mapJ c.folders), (asc "DBConfig", dbJ c.db), (asc "CertificatePemFile", .str c.certFile),
   (asc "PrivateKeyPemFile", .str c.keyFile), (asc "HttpAPIPort", .num (intText c.port)), (asc "CsvIngestionMaxRows", .num (natText c.maxRows)),
   (asc "UpdateAt", .str (todText c.updateAt)), (asc "UpdateTimer", .str (durationText c.updateTimer))]

/-- config.go:37-43 `WriteConfigurationToFile`: the text written. -/
def writeConf (c : Conf) : Bytes := render (.obj (confMembers c))

/-- fold.go `foldName`: the letter cases of ASCII, and the two other characters that fold to ASCII letters (`ſ` and the Kelvin sign). -/
def foldName : Bytes → Bytes
  | [] => []
  | 0xC5 :: 0xBF :: t => 0x53 :: foldName t
  | 0xE2 :: 0x84 :: 0xAA :: t => 0x4B :: foldName t
  | b :: t => (if 0x61 ≤ b ∧ b ≤ 0x7A then b - 0x20 else b) :: foldName t

/-- The field with a name: exactly, else in any letter case (decode.go `object`). -/
def fieldIndex (names : List Bytes) (key : Bytes) : Option Nat :=
  match names.findIdx? (· == key) with
  | some i => some i
  | none => names.findIdx? (fun n => foldName n == foldName key)

/-- decode.go `literalStore`, a string: null changes nothing. -/
def decStr (old : Bytes) : J → Option Bytes
  | .null => some old
  | .str s => some s
  | _ => none

def decBool (old : Bool) : J → Option Bool
  | .null => some old
  | .bool b => some b
  | _ => none

/-- decode.go `literalStore`, an `int`. -/
def decInt (old : Int) : J → Option Int
  | .null => some old
  | .num lit => Rows.parseInt64 lit
  | _ => none

/-- decode.go `literalStore`, a `uint64` (`strconv.ParseUint`). -/
def decUint (old : Nat) : J → Option Nat
  | .null => some old
  | .num lit =>
    match Rows.digitsVal 0 lit with
    | some n => if n < 2 ^ 64 then some n else none
    | none => none
  | _ => none

/-- decode.go `array`: the elements; null leaves the old element. -/
def decElems : List Bytes → List J → Option (List Bytes)
  | _, [] => some []
  | old, v :: l =>
    match decStr (old.headD []) v with
    | none => none
    | some s => (decElems old.tail l).map (s :: ·)

def decSlice (old : Option (List Bytes)) : J → Option (Option (List Bytes))
  | .null => some none
  | .arr l => (decElems (old.getD []) l).map some
  | _ => none

/-- A Go map assignment. -/
def putKey (k v : Bytes) : StrMap → StrMap
  | [] => [(k, v)]
  | (k', v') :: m => if bytesLt k k' then (k, v) :: (k', v') :: m else if k = k' then (k, v) :: m else (k', v') :: putKey k v m

/-- decode.go `object` for a map: null is the empty string. -/
def decEntries : StrMap → List (Bytes × J) → Option StrMap
  | m, [] => some m
  | m, (k, v) :: l =>
    match decStr [] v with
    | none => none
    | some s => decEntries (putKey k s m) l

def decMap (old : Option StrMap) : J → Option (Option StrMap)
  | .null => some none
  | .obj l => (decEntries (old.getD []) l).map some
  | _ => none

/-- decode.go `object` for a struct: the members one after the other; unknown ones are ignored. -/
def decFields {α : Type} (names : List Bytes) (set : Nat → J → α → Option α) : α → List (Bytes × J) → Option α
  | c, [] => some c
  | c, (k, v) :: l =>
    match fieldIndex names k with
    | none => decFields names set c l
    | some i =>
      match set i v c with
      | none => none
      | some c' => decFields names set c' l

/-- pkg/db/conf.go:6-11: one field. -/
def setDb (i : Nat) (v : J) (c : DbConf) : Option DbConf :=
  match i with
  | 0 => (decStr c.dsn v).map fun x => { c with dsn := x }
  | 1 => (decStr c.dbName v).map fun x => { c with dbName := x }
  | 2 => (decMap c.values v).map fun x => { c with values := x }
  | _ => (decBool c.checkSchema v).map fun x => { c with checkSchema := x }

def dbNames : List Bytes := [asc "Dsn", asc "DBName", asc "Values", asc "CheckSchema"]

/-- decode.go `indirect`: a pointer to a struct. -/
def decDb (old : Option DbConf) : J → Option (Option DbConf)
  | .null => some none
  | .obj l => (decFields dbNames setDb (old.getD ⟨[], [], none, false⟩) l).map some
  | _ => none

/-- time_wrap.go:57-64 `UnmarshalJSON`: null is the empty text. -/
def decTod : J → Option Tod
  | .null => parseTod []
  | .str s => parseTod s
  | _ => none

/-- duration_wrap.go:33-35 `UnmarshalText`, called for strings only. -/
def decDuration (old : Int) : J → Option Int
  | .null => some old
  | .str s => parseDurationText s
  | _ => none

/-- config.go:11-22: one field. -/
def setConf (i : Nat) (v : J) (c : Conf) : Option Conf :=
  match i with
  | 0 => (decSlice c.urls v).map fun x => { c with urls := x }
  | 1 => (decMap c.folders v).map fun x => { c with folders := x }
  | 2 => (decDb c.db v).map fun x => { c with db := x }
  | 3 => (decStr c.certFile v).map fun x => { c with certFile := x }
  | 4 => (decStr c.keyFile v).map fun x => { c with keyFile := x }
  | 5 => (decInt c.port v).map fun x => { c with port := x }
  | 6 => (decUint c.maxRows v).map fun x => { c with maxRows := x }
  | 7 => (decTod v).map fun x => { c with updateAt := x }
  | _ => (decDuration c.updateTimer v).map fun x => { c with updateTimer := x }

def confNames : List Bytes :=
  [asc "CTLogServerURLs", asc "CertificateFolders", asc "DBConfig", asc "CertificatePemFile", asc "PrivateKeyPemFile", asc "HttpAPIPort", asc "CsvIngestionMaxRows", asc "UpdateAt", asc "UpdateTimer"]

/-- config.go:31: a new `Config` (the zero time has the clock 00:00:00). -/
def zeroConf : Conf := ⟨none, none, none, [], [], 0, 0, ⟨0, 0, 0, 0⟩, 0⟩

/-- decode.go `Unmarshal` into a `Config`: null changes nothing. -/
def decConf : J → Option Conf
  | .null => some zeroConf
  | .obj l => decFields confNames setConf zeroConf l
  | _ => none

/-- config.go:24-35 `ReadConfigFromFile`, for the text of the file; an error is `none`. -/
def readConf (text : Bytes) : Option Conf :=
  match parse text with
  | none => none
  | some j => decConf j

end Fpki.Config
