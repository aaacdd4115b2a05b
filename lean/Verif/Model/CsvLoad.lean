import Verif.Model.Bytes
/-!
# Model of the CSV files that fill the tables: how they are written and how MySQL reads them

`pkg/mapserver/updater/csv.go` (the files of the ingest pipeline), `pkg/db/mysql/mysql.go:556-578` (`writeToCSV` with `encoding/csv`), and
the `LOAD DATA` statements `pkg/db/mysql/certs.go:377-414`, `dirty.go:307-324`, `mysql.go:538-554`.

MySQL is not in the repository; `readField`, `load` and `fromBase64` model what it documents for
`FIELDS TERMINATED BY ',' ENCLOSED BY '"' LINES TERMINATED BY '\n'` (so `ESCAPED BY '\\'`, the default) and for `FROM_BASE64`: they follow
`READ_INFO::read_field`, `read_sep_field`, `next_line` and `base64_decode` of the server, for a one-byte character set (the schema says `binary`).
Conversions of columns (lengths, character set), warnings and duplicate keys are not part of this file.
-/
namespace Fpki.CsvLoad

def comma : Byte := 44
def quote : Byte := 34
def newline : Byte := 10
def backslash : Byte := 92

/-! ## Writing -/

/-- encoding/base64 `StdEncoding`: the character of a number below 64. -/
def b64char (n : Nat) : Byte :=
  if n < 26 then UInt8.ofNat (65 + n) else if n < 52 then UInt8.ofNat (71 + n) else if n < 62 then UInt8.ofNat (n - 4)
  else if n = 62 then 43 else 47

/-- encoding/base64 `StdEncoding.AppendEncode` (csv.go:244) and `EncodeToString`. -/
def base64 : Bytes → Bytes
  | [] => []
  | [a] => [b64char (a.toNat / 4), b64char (a.toNat % 4 * 16), 61, 61]
  | [a, b] => [b64char (a.toNat / 4), b64char (a.toNat % 4 * 16 + b.toNat / 16), b64char (b.toNat % 16 * 4), 61]
  | a :: b :: c :: r =>
    b64char (a.toNat / 4) :: b64char (a.toNat % 4 * 16 + b.toNat / 16) :: b64char (b.toNat % 16 * 4 + c.toNat / 64) :: b64char (c.toNat % 64) ::
      base64 r

/-- A date and time; from `time.Time` in its location (the conversion is not modelled). -/
structure DateTime where
  year : Nat
  month : Nat
  day : Nat
  hour : Nat
  min : Nat
  sec : Nat
deriving DecidableEq, Repr

/-- A decimal digit. -/
def digit (n : Nat) : Byte := UInt8.ofNat (48 + n % 10)
/-- Two digits, with a leading zero. -/
def two (n : Nat) : Bytes := [digit (n / 10), digit n]
/-- `time.DateTime` = "2006-01-02 15:04:05" (csv.go:249, certs.go:79), for years up to 9999. -/
def DateTime.format (t : DateTime) : Bytes :=
  two (t.year / 100) ++ two t.year ++ [45] ++ two t.month ++ [45] ++ two t.day ++ [32] ++ two t.hour ++ [58] ++ two t.min ++ [58] ++ two t.sec

/-- types.go:33-39 `Certificate`. -/
structure Certificate where
  id : Bytes
  parent : Option Bytes
  notAfter : DateTime
  raw : Bytes
deriving DecidableEq, Repr

/-- types.go:45-49 `DirtyDomain`. -/
structure DirtyDomain where
  domain : Bytes
  cert : Bytes
  name : Bytes
deriving DecidableEq, Repr

/-- csv.go:244, 248-249, 253-254: the storage of a field is emptied, then appended to. -/
def setField (storage new : Bytes) : Bytes := storage.take 0 ++ new

/-- csv.go:204-210 `recordsForCert` (with 228-245). The four fields exist (certsWorker.go:143-148); `dst` is their old content. -/
def recordsForCert (dst : List Bytes) (c : Certificate) : List Bytes :=
  match dst with
  | f0 :: f1 :: f2 :: f3 :: r =>
    setField f0 (base64 c.id) :: (match c.parent with | none => f1.take 0 | some p => setField f1 (base64 p)) ::
      setField f2 c.notAfter.format :: setField f3 (base64 c.raw) :: r
  | _ => dst

/-- csv.go:212-215 `recordsForDirty` -/
def recordsForDirty (dst : List Bytes) (d : DirtyDomain) : List Bytes :=
  match dst with
  | f0 :: r => setField f0 (base64 d.domain) :: r
  | _ => dst

/-- csv.go:217-221 `recordsForDomains` -/
def recordsForDomains (dst : List Bytes) (d : DirtyDomain) : List Bytes :=
  match dst with
  | f0 :: f1 :: r => setField f0 (base64 d.domain) :: setField f1 d.name :: r
  | _ => dst

/-- csv.go:223-227 `recordsForDomainCerts` -/
def recordsForDomainCerts (dst : List Bytes) (d : DirtyDomain) : List Bytes :=
  match dst with
  | f0 :: f1 :: r => setField f0 (base64 d.domain) :: setField f1 (base64 d.cert) :: r
  | _ => dst

/-- The writes of a row: csv.go:134-150, 184-197. -/
def rowWrites (row : List Bytes) : List Bytes :=
  match row with
  | [] => [[newline]]
  | f :: fs => f :: fs.flatMap (fun g => [[comma], g]) ++ [[newline]]

/-- pkg/util/noallocs/file.go: `Write` to a file opened with O_APPEND: all of the data, or an error. `ok n` tells if write number `n` succeeds;
`none` is an error. -/
def writeChunks (ok : Nat → Bool) : Nat → List Bytes → Option Bytes
  | _, [] => some []
  | n, c :: cs => if ok n then (writeChunks ok (n + 1) cs).map (c ++ ·) else none

/-- csv.go:121-158 `writeCSV`: the content of the new file; `none` is an error. The temporary file is new and empty (O_EXCL). -/
def writeCSV (ok : Nat → Bool) (rows : List (List Bytes)) : Option Bytes := writeChunks ok 0 (rows.flatMap rowWrites)

/-- csv.go:107-110: the values are set in the storage. -/
def setRows (toRecords : List Bytes → α → List Bytes) : List (List Bytes) → List α → List (List Bytes)
  | row :: rows, d :: ds => toRecords row d :: setRows toRecords rows ds
  | rows, _ => rows

/-- csv.go:96-113 `writeRecordsWithStorage`; `none` also if the storage has too few rows (panic at csv.go:109). -/
def writeRecords (ok : Nat → Bool) (storage : List (List Bytes)) (toRecords : List Bytes → α → List Bytes) (data : List α) : Option Bytes :=
  if data.length ≤ storage.length then writeCSV ok ((setRows toRecords storage data).take data.length) else none

/-- csv.go:182-198: one storage row is used for all certificates, one after the other. -/
def certWrites : List Bytes → List Certificate → List Bytes
  | _, [] => []
  | row, c :: cs => rowWrites (recordsForCert row c) ++ certWrites (recordsForCert row c) cs

/-- csv.go:36-48, 164-202 `CreateCsvCerts`, `writeCertCSV` -/
def createCsvCerts (ok : Nat → Bool) (row : List Bytes) (certs : List Certificate) : Option Bytes := writeChunks ok 0 (certWrites row certs)
/-- csv.go:50-63 `CreateCsvDirty` -/
def createCsvDirty (ok : Nat → Bool) (storage : List (List Bytes)) (ds : List DirtyDomain) : Option Bytes := writeRecords ok storage recordsForDirty ds
/-- csv.go:65-78 `CreateCsvDomains` -/
def createCsvDomains (ok : Nat → Bool) (storage : List (List Bytes)) (ds : List DirtyDomain) : Option Bytes := writeRecords ok storage recordsForDomains ds
/-- csv.go:80-94 `CreateCsvDomainCerts` -/
def createCsvDomainCerts (ok : Nat → Bool) (storage : List (List Bytes)) (ds : List DirtyDomain) : Option Bytes := writeRecords ok storage recordsForDomainCerts ds

/-! ### The other writer, `encoding/csv` -/

/-- encoding/csv `fieldNeedsQuotes` (Go 1.2x) with a comma: not the empty field, `\.`, a field with a comma, a quote or an end of line, or a leading
space (`space` tells if the first rune is one). -/
def needsQuotes (space : Bytes → Bool) (f : Bytes) : Bool :=
  !f.isEmpty && (f == [backslash, 46] || f.any (fun c => c == newline || c == 13 || c == quote || c == comma) || space f)

/-- encoding/csv `Writer.Write`: a field; quotes are doubled. -/
def goField (space : Bytes → Bool) (f : Bytes) : Bytes :=
  if needsQuotes space f then quote :: f.flatMap (fun c => if c == quote then [quote, quote] else [c]) ++ [quote] else f

/-- A row with its fields separated by commas. -/
def joinComma : List Bytes → Bytes
  | [] => []
  | [f] => f
  | f :: fs => f ++ comma :: joinComma fs

/-- mysql.go:556-578 `writeToCSV`, without write errors. -/
def goCsv (space : Bytes → Bool) (rows : List (List Bytes)) : Bytes := rows.flatMap (fun r => joinComma (r.map (goField space)) ++ [newline])

/-- mysql.go:120-126: the records of `updateDomainsCSV` -/
def goDomains (ds : List (Bytes × Bytes)) : List (List Bytes) := ds.map (fun d => [base64 d.1, d.2])
/-- certs.go:72-84: the records of `updateCertsCSV` -/
def goCerts (cs : List Certificate) : List (List Bytes) :=
  cs.map (fun c => [base64 c.id, (match c.parent with | none => [] | some p => base64 p), c.notAfter.format, base64 c.raw])

/-! ## What MySQL does with the file -/

/-- How a field ends: at a comma, at the end of a line, at the end of the file. With the rest of the file. -/
inductive End where
  | field (rest : Bytes)
  | line (rest : Bytes)
  | file
deriving DecidableEq, Repr

/-- A field as read: its text, if it was enclosed in quotes, if `\N` was seen. -/
structure Read where
  text : Bytes
  enclosed : Bool
  null : Bool
deriving DecidableEq, Repr

/-- `READ_INFO::unescape` -/
def unescape (c : Byte) : Byte :=
  if c = 110 then 10 else if c = 116 then 9 else if c = 114 then 13 else if c = 98 then 8 else if c = 48 then 0 else if c = 90 then 26 else c

/-- `READ_INFO::read_field` of a field that does not begin with a quote. -/
def readPlain (text : Bytes) (null : Bool) : Bytes → Read × End
  | [] => (⟨text, false, null⟩, .file)
  | c :: r =>
    if c = backslash then
      match r with
      | [] => (⟨text ++ [backslash], false, null⟩, .file)
      | d :: r' => readPlain (text ++ [unescape d]) (null || d == 78) r'
    else if c = newline then (⟨text, false, null⟩, .line r)
    else if c = comma then (⟨text, false, null⟩, .field r)
    else readPlain (text ++ [c]) null r

/-- `READ_INFO::read_field` after an opening quote. -/
def readQuoted (text : Bytes) (null : Bool) : Bytes → Read × End
  | [] => (⟨quote :: text, false, null⟩, .file)
  | c :: r =>
    if c = backslash then
      match r with
      | [] => (⟨quote :: text ++ [backslash], false, null⟩, .file)
      | d :: r' => readQuoted (text ++ [unescape d]) (null || d == 78) r'
    else if c = quote then
      match r with
      | [] => (⟨text, true, null⟩, .file)
      | d :: r' =>
        if d = quote then readQuoted (text ++ [quote]) null r'
        else if d = newline then (⟨text, true, null⟩, .line r')
        else if d = comma then (⟨text, true, null⟩, .field r')
        else readQuoted (text ++ [quote]) null (d :: r')
    else readQuoted (text ++ [c]) null r

/-- `READ_INFO::read_field` -/
def readField : Bytes → Option (Read × End)
  | [] => none
  | c :: r => some (if c = quote then readQuoted [] false r else readPlain [] false (c :: r))

/-- `read_sep_field`: the value of a field: NULL if it is the word NULL without quotes, or `\N`. -/
def Read.value (r : Read) : Option Bytes :=
  if (!r.enclosed && r.text == [78, 85, 76, 76]) || (r.text.length == 1 && r.null) then none else some r.text

/-- `READ_INFO::next_line`: the rest of a line that has too many fields is skipped. -/
def skipLine : Bytes → Option Bytes
  | [] => none
  | c :: r =>
    if c = backslash then (match r with | [] => none | _ :: r' => skipLine r')
    else if c = newline then some r
    else skipLine r

/-- `read_sep_field`: the remaining `n` fields of a line; missing ones are NULL. The rest of the file, `none` at its end. -/
def readFields : Nat → Bytes → List (Option Bytes) × Option Bytes
  | 0, s => ([], skipLine s)
  | n + 1, s =>
    match readField s with
    | none => (List.replicate (n + 1) none, none)
    | some (v, .field rest) => let (vs, e) := readFields n rest; (v.value :: vs, e)
    | some (v, .line rest) => (v.value :: List.replicate n none, some rest)
    | some (v, .file) => (v.value :: List.replicate n none, none)

/-- `read_sep_field`: the rows, of `n` values each. Every row uses at least one byte: `fuel` is not reached with `s.length + 1`. -/
def loadRows (n : Nat) : Nat → Bytes → List (List (Option Bytes))
  | 0, _ => []
  | _ + 1, [] => []
  | fuel + 1, s =>
    match readFields n s with
    | (vs, none) => [vs]
    | (vs, some rest) => vs :: loadRows n fuel rest

/-- `LOAD DATA` with `n` columns or variables. -/
def load (n : Nat) (s : Bytes) : List (List (Option Bytes)) := loadRows n (s.length + 1) s

/-- `base64_decode`: the number of a character. -/
def b64num (c : Byte) : Option Nat :=
  let n := c.toNat
  if 65 ≤ n ∧ n ≤ 90 then some (n - 65) else if 97 ≤ n ∧ n ≤ 122 then some (n - 71) else if 48 ≤ n ∧ n ≤ 57 then some (n + 4)
  else if n = 43 then some 62 else if n = 47 then some 63 else none

/-- `base64_decode`: groups of four characters; `=` only at the end of the last one. -/
def decodeGroups : Bytes → Option Bytes
  | [] => some []
  | a :: b :: c :: d :: r =>
    match b64num a, b64num b with
    | some x, some y =>
      if c = 61 then (if d = 61 ∧ r = [] then some [UInt8.ofNat (x * 4 + y / 16)] else none)
      else match b64num c with
        | none => none
        | some z =>
          if d = 61 then (if r = [] then some [UInt8.ofNat (x * 4 + y / 16), UInt8.ofNat (y % 16 * 16 + z / 4)] else none)
          else match b64num d with
            | none => none
            | some w => (decodeGroups r).map fun t => UInt8.ofNat (x * 4 + y / 16) :: UInt8.ofNat (y % 16 * 16 + z / 4) :: UInt8.ofNat (z % 4 * 64 + w) :: t
    | _, _ => none
  | _ => none

/-- `FROM_BASE64`: NULL of NULL and of text that is not base64; spaces are skipped. -/
def fromBase64 (v : Option Bytes) : Option Bytes := v.bind fun s => decodeGroups (s.filter fun c => !(c == 32 || (9 ≤ c && c ≤ 13)))

/-- A row for the table `certs`: the values of its columns. -/
structure CertRow where
  id : Option Bytes
  parent : Option Bytes
  expiration : Option Bytes
  payload : Option Bytes
deriving DecidableEq, Repr

/-- Value number `i` of a row. -/
def col (row : List (Option Bytes)) (i : Nat) : Option Bytes := row.getD i none

/-- certs.go:388-393 -/
def loadCerts (s : Bytes) : List CertRow := (load 4 s).map fun r => ⟨fromBase64 (col r 0), fromBase64 (col r 1), col r 2, fromBase64 (col r 3)⟩
/-- dirty.go:318-322 (the column `coalesced` is FALSE) -/
def loadDirty (s : Bytes) : List (Option Bytes) := (load 1 s).map fun r => fromBase64 (col r 0)
/-- mysql.go:549-552: domain and name -/
def loadDomains (s : Bytes) : List (Option Bytes × Option Bytes) := (load 2 s).map fun r => (fromBase64 (col r 0), col r 1)
/-- certs.go:408-412: domain and certificate -/
def loadDomainCerts (s : Bytes) : List (Option Bytes × Option Bytes) := (load 2 s).map fun r => (fromBase64 (col r 0), fromBase64 (col r 1))

end Fpki.CsvLoad
