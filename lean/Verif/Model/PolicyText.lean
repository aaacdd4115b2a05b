import Verif.Model.Reflect
import Verif.Model.PolicyJson
import Verif.Model.Owner
/-!
The JSON texts of policy objects, byte for byte: pkg/common/json.go on top of encoding/json.
-/
namespace Fpki.PolicyText

open Fpki.Json Fpki.Config Fpki.Calendar Fpki.Reflect Fpki.PolicyJson
open Fpki.Policy (Time Fields Cert Spct Env)
open Fpki.Domain (asc star)

/-- json.go:63-82, 196-214: the Go type with a name. -/
def shape : Kind → Shape
  | .pcsr => requestShape
  | .pc => certShape
  | .spct => spctShape
  | .pcrevsr => revocationRequestShape
  | .pcrev => revocationShape
  | .spcrevt => spcrtShape
  | .proof => proofShape
  | .logRoot => logRootShape
  | .spctSigInput => sigInputShape

mutual
/-- json.go:44-58: the envelope is the text of a struct with the fields T and O. -/
def flat : PolicyJson.Json J → J
  | .leaf j => j
  | .arr l => .arr (flats l)
  | .env t o => .obj [(asc "T", .str t), (asc "O", flat o)]

def flats : List (PolicyJson.Json J) → List J
  | [] => []
  | j :: l => flat j :: flats l
end

/-- json.go:104 `json.Marshal` for the named types, and json.go:221-226 `inflateObj`. -/
def lib : Lib V J where
  marshal k v := encJ (shape k) v
  unmarshal k j := Reflect.inflate (shape k) (flat j)

/-- json.go:18-25 `ToJSON`: the text. -/
def toText (v : Val V J) : Out Bytes :=
  match toJSON lib v with
  | .ok j => .ok (render (flat j))
  | .err => .err
  | .panic => .panic

/-- json.go:221-226 `inflateObj`, for a name of a type. -/
def inflateJ (t : Bytes) (j : J) : Option (Val V J) :=
  match kindOf t with
  | none => none
  | some k => (Reflect.inflate (shape k) j).map fun c => .obj ⟨k, c, none⟩

/-- json.go:121-127: the object O for the name T; a pointer is tried once. -/
def finish (t : Bytes) (f : Bytes → Option (Val V J)) : Option (Val V J) :=
  if known t then f t
  else
    match t with
    | c :: t' => if c = star ∧ known t' = true then (f t').map .ptr else none
    | [] => none

/-- The fields of the envelope (json.go:111-114). -/
def envNames : List Bytes := [asc "T", asc "O"]

mutual
/-- json.go:110-165 `UnmarshalJSON`, without the copy of the text in the object (option `WithSkipCopyJSONIntoPolicyObjects`). -/
def fromJ : J → Option (Val V J)
  | .obj l => envMembers l [] (fun _ => none)
  | _ => none

/-- json.go:111-119: the members of the envelope: T is a string, O is kept (here: what would be read from it, for each name of a type). -/
def envMembers : List (Bytes × J) → Bytes → (Bytes → Option (Val V J)) → Option (Val V J)
  | [], t, f => finish t f
  | (k, v) :: l, t, f =>
    match fieldIndex envNames k with
    | none => envMembers l t f
    | some 0 =>
      match decStr t v with
      | none => none
      | some t' => envMembers l t' f
    | some _ => envMembers l t (typeJ v)

/-- json.go:169-219 `unmarshalTypeObject` -/
def typeJ : J → Bytes → Option (Val V J)
  | .arr l, t => if t = asc "[]" then (elemsJ l).map (.slice true) else inflateJ t (.arr l)
  | .null, t => if t = asc "[]" then some (.slice true []) else inflateJ t .null
  | .bool b, t => if t = asc "[]" then none else inflateJ t (.bool b)
  | .num n, t => if t = asc "[]" then none else inflateJ t (.num n)
  | .str s, t => if t = asc "[]" then none else inflateJ t (.str s)
  | .obj l, t => if t = asc "[]" then none else inflateJ t (.obj l)

/-- json.go:181-195: the elements of a list. -/
def elemsJ : List J → Option (List (Val V J))
  | [] => some []
  | j :: l =>
    match fromJ j, elemsJ l with
    | some v, some vs => some (v :: vs)
    | _, _ => none
end

/-- json.go:27-34 `FromJSON` with the option `WithSkipCopyJSONIntoPolicyObjects`; an error is `none`. -/
def fromText (x : Bytes) : Option (Val V J) :=
  match parse x with
  | none => none
  | some j => fromJ j

/-! ## Policy certificates -/

/-- embedded_policies.go:17-27: the fields of a `SignedPolicyCertificateTimestamp` as reflection shows them. -/
def spctV (s : Spct) : V := .struct [.int s.version, .bytes s.logID, .time s.addedTS, .bytes s.signature]

/-- policies.go:91-113 -/
def attributesV (a : PolicyAttr.Attributes) : V := .struct [.slice (a.allowedCAs.map .str), .slice (a.allowed.map .str), .slice (a.disallowed.map .str), .slice (a.excluded.map .str)]

/-- policies.go:53-66 -/
def fieldsV (f : Fields) : List V :=
  [.int f.version, .int f.serial, .str f.domain, .time f.notBefore, .time f.notAfter, .bool f.canIssue, .bool f.canOwn, .bytes f.publicKey, .int f.publicKeyAlgorithm,
   .int f.signatureAlgorithm, .time f.timeStamp, attributesV f.attributes, .bytes f.ownerSignature, .bytes f.ownerHash]

/-- policies.go:81-86 -/
def certV (c : Cert) : V := .struct (fieldsV c.toFields ++ [.bytes c.issuerSignature, .bytes c.issuerHash, .slice (c.spcts.map spctV)])

def intOf : Option V → Int
  | some (.int i) => i
  | _ => 0
def boolOf : Option V → Bool
  | some (.bool b) => b
  | _ => false
def strOf : Option V → Bytes
  | some (.str s) => s
  | _ => []
def bytesOf : Option V → Option Bytes
  | some (.bytes b) => b
  | _ => none
def timeOf : Option V → Time
  | some (.time t) => t
  | _ => zeroTime
def listOf : Option V → List V
  | some (.slice l) => l
  | some (.struct l) => l
  | _ => []
def strsOf (v : Option V) : List Bytes := (listOf v).map fun x => strOf (some x)

/-- embedded_policies.go:17-27: the time stamp with the given fields. -/
def spctOf (v : V) : Spct :=
  let l := listOf (some v)
  ⟨none, intOf l[0]?, bytesOf l[1]?, timeOf l[2]?, bytesOf l[3]?⟩

/-- policies.go:91-113 -/
def attributesOf (v : Option V) : PolicyAttr.Attributes :=
  let l := listOf v
  ⟨strsOf l[0]?, strsOf l[1]?, strsOf l[2]?, strsOf l[3]?⟩

/-- policies.go:53-66: the fields as the library sets them. -/
def fieldsOfV (l : List V) : Fields :=
  { raw := none, version := intOf l[0]?, serial := intOf l[1]?, domain := strOf l[2]?, notBefore := timeOf l[3]?, notAfter := timeOf l[4]?, canIssue := boolOf l[5]?, canOwn := boolOf l[6]?,
    publicKey := bytesOf l[7]?, publicKeyAlgorithm := intOf l[8]?, signatureAlgorithm := intOf l[9]?, timeStamp := timeOf l[10]?, attributes := attributesOf l[11]?,
    ownerSignature := bytesOf l[12]?, ownerHash := bytesOf l[13]? }

/-- policies.go:81-86: the certificate with the given fields. -/
def certOf (v : V) : Cert :=
  let l := listOf (some v)
  { toFields := fieldsOfV l, issuerSignature := bytesOf l[14]?, issuerHash := bytesOf l[15]?, spcts := (listOf l[16]?).map spctOf }

/-- json.go:18-25 `ToJSON` for a pointer to a certificate, as it is called for signatures and hashes (crypto.go:138, 290, 309, 325). -/
def certText (c : Cert) : Option Bytes :=
  match toText (.ptr (.obj ⟨.pc, certV c, none⟩)) with
  | .ok x => some x
  | _ => none

/-- json.go:27-34 `FromJSON` where the result must be a pointer to a certificate (json.go:252-263 `JsonFileToPolicyCert`), without the copy of the text. -/
def readCert (x : Bytes) : Option Cert :=
  match fromText x with
  | some (.ptr (.obj ⟨.pc, v, _⟩)) => some (certOf v)
  | _ => none

/-- embedded_policies.go:68-71 `SignedEntryTimestampSignatureInput` -/
def inputV (i : Owner.SptInput) : V := .struct [.int i.version, .bytes i.logID, .time i.addedTS, .bytes i.signature, .bytes (some i.entry)]

/-- embedded_policies.go:68-71 -/
def inputOf (v : V) : Owner.SptInput :=
  let l := listOf (some v)
  ⟨intOf l[0]?, bytesOf l[1]?, timeOf l[2]?, bytesOf l[3]?, (bytesOf l[4]?).getD []⟩

/-- crypto.go:33: `ToJSON` for a pointer to a signature input. -/
def inputText (i : Owner.SptInput) : Option Bytes :=
  match toText (.ptr (.obj ⟨.spctSigInput, inputV i, none⟩)) with
  | .ok x => some x
  | _ => none

end Fpki.PolicyText
