import Verif.Model.Db
import Verif.Model.CsvLoad

/-!
# Model of the payload API of the map server
`pkg/mapserver/mapserver.go` `apiGetPayloads`, and the three DB functions behind it (`pkg/db/mysql/{certs,policies,common}.go`).

The DB answers a query with the selected rows in any order. If reading the rows fails midway (lost connection, or the 5 s of the request are over),
`rows.Next` answers false after any number of rows; the code never calls `rows.Err`. Connection errors of the query itself, and the limits on the length of
a URL, are not modelled.
-/
namespace Fpki.PayloadApi
open Fpki.Db (DB Cert)
open Fpki.CsvLoad (base64 decodeGroups)

/-- mapserver.go:27-33 `PayloadReturnType` -/
inductive Kind | certificates | policies | both
deriving DecidableEq, Repr

/-- encoding/hex: the value of a digit. -/
def hexVal (c : Byte) : Option Nat :=
  if 48 ≤ c.toNat ∧ c.toNat ≤ 57 then some (c.toNat - 48)
  else if 97 ≤ c.toNat ∧ c.toNat ≤ 102 then some (c.toNat - 87)
  else if 65 ≤ c.toNat ∧ c.toNat ≤ 70 then some (c.toNat - 55)
  else none

/-- encoding/hex `DecodeString` -/
def hexDecode : Bytes → Option Bytes
  | [] => some []
  | [_] => none
  | a :: b :: r =>
    match hexVal a, hexVal b, hexDecode r with
    | some x, some y, some t => some (UInt8.ofNat (x * 16 + y) :: t)
    | _, _, _ => none

/-- encoding/hex: the digit of a value. -/
def hexDigit (n : Nat) : Byte := UInt8.ofNat (if n < 10 then 48 + n else 87 + n)

/-- encoding/hex `EncodeToString`: what a client does (tests/integration/mapserver/main.go:179). -/
def hexEncode (b : Bytes) : Bytes := b.flatMap fun x => [hexDigit (x.toNat / 16), hexDigit (x.toNat % 16)]

/-- common.SHA256Size -/
def idSize : Nat := 32

/-- mapserver.go:259-275: the IDs in the parameter `ids`; `none` is status 400. -/
def parseIds (h : Bytes) : Option (List Bytes) :=
  if h.length % (idSize * 2) ≠ 0 then none
  else (List.range (h.length / idSize / 2)).mapM fun i => hexDecode ((h.drop (i * idSize * 2)).take ((i + 1) * idSize * 2 - i * idSize * 2))

/-- strings.Join -/
def join (sep : Bytes) : List Bytes → Bytes
  | [] => []
  | [x] => x
  | x :: y :: r => x ++ sep ++ join sep (y :: r)

/-- mysql.go:583-590 `repeatStmt` (`elemCount` at least 1: `strings.Repeat` panics with a negative count). -/
def repeatStmt (elemCount dimensions : Nat) : Bytes :=
  let toRepeat := [40] ++ join [44] (List.replicate dimensions [63]) ++ [41]
  (List.replicate (elemCount - 1) (toRepeat ++ [44])).flatten ++ toRepeat

/-- MySQL: the list after `IN` has at least one expression; `IN ()` is a syntax error. -/
def inListOk (s : Bytes) : Bool := s != [40, 41]

/-- certs.go:255, policies.go:144, common.go:17-20: the rows of the query. `UNION` removes equal rows. -/
def selected (db : DB) (k : Kind) (ids : List Bytes) : List (Bytes × Bytes) :=
  let sel := fun (t : List Cert) => (t.filter fun c => ids.contains c.id).map fun c => (c.id, c.payload)
  match k with
  | .certificates => sel db.certs
  | .policies => sel db.policies
  | .both => (sel db.policies ++ sel db.certs).eraseDups

/-- certs.go:266-274 (the same loop in policies.go and common.go): the map after reading the rows. -/
def readRows (rows : List (Bytes × Bytes)) : Bytes → Option Bytes :=
  rows.foldl (fun m r => fun i => if i = r.1 then some r.2 else m i) fun _ => none

/-- certs.go:251-284 `RetrieveCertificatePayloads`, policies.go:141-173 `RetrievePolicyPayloads`, common.go:11-48 `RetrieveCertificateOrPolicyPayloads`; `none`
is an error, a missing payload is nil. `rows` are the rows that `rows.Next` yields. -/
def retrieve (ids : List Bytes) (rows : List (Bytes × Bytes)) : Option (List (Option Bytes)) :=
  if inListOk (repeatStmt 1 ids.length) then some (ids.map (readRows rows)) else none

/-- encoding/json: a `[]byte` is a string with its base64 text, nil is null. -/
def jsonItem : Option Bytes → Bytes
  | none => [110, 117, 108, 108]
  | some b => [34] ++ base64 b ++ [34]

/-- mapserver.go:294-295: `json.Encoder.Encode` of a `[][]byte`. -/
def jsonBody (l : List (Option Bytes)) : Bytes := [91] ++ join [44] (l.map jsonItem) ++ [93, 10]

/-- An HTTP answer: its status and, with status 200, its body. -/
inductive Response
  | ok (body : Bytes)
  | badRequest
deriving DecidableEq, Repr

/-- mapserver.go:255-300 `apiGetPayloads`: `query ids` are the rows that the DB delivers. -/
def apiGetPayloads (query : List Bytes → List (Bytes × Bytes)) (param : Bytes) : Response :=
  match parseIds param with
  | none => .badRequest
  | some ids =>
    match retrieve ids (query ids) with
    | none => .badRequest
    | some l => .ok (jsonBody l)

/-- mapserver.go:162-164: the route of a request. (`/getproof` is modelled in `Responder`.) -/
def routeKind (path : String) : Option Kind :=
  if path = "/getpayloads" then some .both
  else if path = "/getcertpayloads" then some .certificates
  else if path = "/getpolicypayloads" then some .policies
  else none

/-! ## The client -/

/-- The parts of a text between commas. -/
def splitComma : Bytes → List Bytes
  | [] => [[]]
  | c :: r => if c = 44 then [] :: splitComma r else
    match splitComma r with
    | [] => [[c]]
    | x :: xs => (c :: x) :: xs

/-- An item of the body. -/
def readItem (s : Bytes) : Option (Option Bytes) :=
  if s = [110, 117, 108, 108] then some none
  else if 2 ≤ s.length ∧ s.head? = some 34 ∧ s.getLast? = some 34 then ((decodeGroups ((s.drop 1).dropLast)).map some)
  else none

/-- tests/integration/mapserver/main.go:191-193: the client decodes the body into a `[][]byte` (for the bodies that contain only null and base64 strings). -/
def readBody (s : Bytes) : Option (List (Option Bytes)) :=
  if 3 ≤ s.length ∧ s.head? = some 91 ∧ s.drop (s.length - 2) = [93, 10] then
    if s = [91, 93, 10] then some [] else (splitComma ((s.drop 1).take (s.length - 3))).mapM readItem
  else none

end Fpki.PayloadApi
