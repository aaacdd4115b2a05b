import Verif.Model.Bytes

/-!
# Model of `cmd/ingest/fastcsv/fastcsv.go`

Log output, file name and line number are not modelled. The standard library's CSV reader is a
parameter of `parseLine`.
-/
namespace Fpki.FastCsv

def comma : Byte := 44
def quote : Byte := 34
def dotB : Byte := 46

/-- fastcsv.go:38-44 `Result`; the reason only for errors. -/
inductive Result where
  | ok (cert chain expiration : Bytes)
  | fallback
  | hardError
deriving Repr, DecidableEq

/-- `rawLine[a:b]` -/
def slice (b : Bytes) (p : Nat × Nat) : Bytes := (b.take p.2).drop p.1

/-- The variables of the loop fastcsv.go:106-126; `none` is -1. -/
structure Scan where
  fieldIndex : Nat
  fieldStart : Nat
  cert : Option (Nat × Nat)
  chain : Option (Nat × Nat)
  last : Option (Nat × Nat)
deriving Repr, DecidableEq

/-- fastcsv.go:116-125: a field ends at `i`. -/
def endField (s : Scan) (i : Nat) : Scan :=
  { fieldIndex := s.fieldIndex + 1
    fieldStart := i + 1
    cert := if s.fieldIndex = 3 then some (s.fieldStart, i) else s.cert
    chain := if s.fieldIndex = 4 then some (s.fieldStart, i) else s.chain
    last := some (s.fieldStart, i) }

/-- fastcsv.go:112-126: the loop, at index `i` with the given rest of the row. -/
def scanLoop (i : Nat) (s : Scan) : Bytes → Scan
  | [] => endField s i
  | c :: rest => if c ≠ comma then scanLoop (i + 1) s rest else scanLoop (i + 1) (endField s i) rest

/-- `bytes.IndexByte`: `none` is -1. -/
def indexByte (x : Byte) : Bytes → Option Nat
  | [] => none
  | c :: t => if c = x then some 0 else (indexByte x t).map (· + 1)

def isDigit (b : Byte) : Bool := !(b < 48 || b > 57)

/-- fastcsv.go:167-186 `looksLikeExpirationField`. -/
def looksLikeExpiration (f : Bytes) : Bool :=
  if f.length < 3 then false
  else match indexByte dotB f with
    | none => false
    | some dot =>
      if dot = 0 ∨ dot = f.length - 1 then false
      else (f.take dot).all isDigit && (f.drop (dot + 1)).all isDigit

/-- fastcsv.go:98-144 `ParseRowFast`. -/
def parseRowFast (row : Bytes) : Result :=
  if row.length = 0 then .hardError
  else if (indexByte quote row).isSome then .fallback
  else
    let s := scanLoop 0 ⟨0, 0, none, none, none⟩ row
    match s.cert, s.chain, s.last with
    | some c, some ch, some l =>
      if c.1 = c.2 then .hardError
      else if !looksLikeExpiration (slice row l) then .fallback
      else .ok (slice row c) (slice row ch) (slice row l)
    | _, _, _ => .hardError

/-- fastcsv.go:67 `bytes.TrimRight(rawLine, "\r\n")`. -/
def trimRight (l : Bytes) : Bytes := (l.reverse.dropWhile (fun b => b == 13 || b == 10)).reverse

/-- fastcsv.go:146-165 `parseRowSlow`; `csv` is `csv.Reader.Read` with `FieldsPerRecord = -1` on the
row (`none`: error). -/
def parseRowSlow (csv : Bytes → Option (List Bytes)) (row : Bytes) : Option (Bytes × Bytes × Bytes) :=
  match csv row with
  | none => none
  | some fields =>
    if fields.length ≤ 4 then none
    else
      let e := fields.getD (fields.length - 1) []
      if e = [] then none else some (fields.getD 3 [], fields.getD 4 [], e)

/-- fastcsv.go:66-95 `ParseLine` (certificate, chain and expiration fields, `none` for an error). -/
def parseLine (csv : Bytes → Option (List Bytes)) (rawLine : Bytes) : Option (Bytes × Bytes × Bytes) :=
  let row := trimRight rawLine
  match parseRowFast row with
  | .ok c ch e => some (c, ch, e)
  | .fallback => parseRowSlow csv row
  | .hardError => none

end Fpki.FastCsv
