import Verif.Model.Calendar
/-!
encoding/json for the Go types of pkg/common (json.go, policies.go, embedded_policies.go, policy_issuance.go): a type is described by its fields, as the library does it by reflection.
-/
namespace Fpki.Reflect

open Fpki.Json Fpki.Config Fpki.Calendar
open Fpki.Policy (Time fixUtf8)
open Fpki.Domain (asc)

/-- A Go type: `int` and the types made from it, `uint64`, `bool`, `string`, `[]byte`, `time.Time`, a slice, an array of `n` bytes, a pointer, a map from strings, a struct with the names of its fields in JSON (those of embedded structs among them) and whether they have `omitempty`. -/
inductive Shape
  | int | uint | bool | str | bytes | time
  | slice (s : Shape)
  | array (n : Nat)
  | ptr (s : Shape)
  | map (s : Shape)
  | struct (fs : List (Bytes × Bool × Shape))

/-- A Go value; `bytes none`, `nilSlice`, `nilPtr` and `nilMap` are nil. A map is the list of its entries in the order of the keys. -/
inductive V
  | int (i : Int)
  | uint (n : Nat)
  | bool (b : Bool)
  | str (s : Bytes)
  | bytes (b : Option Bytes)
  | time (t : Time)
  | nilSlice
  | slice (l : List V)
  | array (b : Bytes)
  | nilPtr
  | ptr (v : V)
  | nilMap
  | map (l : List (Bytes × V))
  | struct (l : List V)

/-- encode.go `isEmptyValue` -/
def isEmpty : V → Bool
  | .int i => i == 0
  | .uint n => n == 0
  | .bool b => !b
  | .str s => s.isEmpty
  | .bytes none => true
  | .bytes (some b) => b.isEmpty
  | .nilSlice => true
  | .slice l => l.isEmpty
  | .array b => b.isEmpty
  | .nilPtr => true
  | .ptr _ => false
  | .nilMap => true
  | .map l => l.isEmpty
  | .time _ | .struct _ => false

/-- The instant 0001-01-01 00:00:00 UTC. -/
def zeroTime : Time := ⟨-62135596800000000000, 0, 0, none⟩

mutual
/-- The zero value of a type. -/
def zero : Shape → V
  | .int => .int 0
  | .uint => .uint 0
  | .bool => .bool false
  | .str => .str []
  | .bytes => .bytes none
  | .time => .time zeroTime
  | .slice _ => .nilSlice
  | .array n => .array (List.replicate n 0)
  | .ptr _ => .nilPtr
  | .map _ => .nilMap
  | .struct fs => .struct (zeros fs)

/-- The zero values of the fields. -/
def zeros : List (Bytes × Bool × Shape) → List V
  | [] => []
  | (_, _, s) :: fs => zero s :: zeros fs
end

/-- All elements, or an error. -/
def encElems (e : V → Option J) : List V → Option (List J)
  | [] => some []
  | v :: l =>
    match e v, encElems e l with
    | some j, some js => some (j :: js)
    | _, _ => none

/-- All values of a map, or an error. -/
def encEntries (e : V → Option J) : List (Bytes × V) → Option (List (Bytes × J))
  | [] => some []
  | (k, v) :: l =>
    match e v, encEntries e l with
    | some j, some js => some ((k, j) :: js)
    | _, _ => none

/-- encode.go `arrayEncoder`, `uintEncoder`: the bytes of an array are numbers. -/
def byteJs (b : Bytes) : List J := b.map fun x => .num (natText x.toNat)

mutual
/-- json.go:104 `json.Marshal`: the text as a tree (encode.go `newTypeEncoder`); `none` is an error. -/
def encJ : Shape → V → Option J
  | .int, .int i => some (.num (intText i))
  | .uint, .uint n => some (.num (natText n))
  | .bool, .bool b => some (.bool b)
  | .str, .str s => some (.str s)
  | .bytes, .bytes none => some .null
  | .bytes, .bytes (some b) => some (.str (CsvLoad.base64 b))
  | .time, .time t => (timeText t).map .str
  | .slice _, .nilSlice => some .null
  | .slice s, .slice l => (encElems (encJ s) l).map .arr
  | .array _, .array b => some (.arr (byteJs b))
  | .ptr _, .nilPtr => some .null
  | .ptr s, .ptr v => encJ s v
  | .map _, .nilMap => some .null
  | .map s, .map l => (encEntries (encJ s) l).map .obj
  | .struct fs, .struct vs => (encFields fs vs).map .obj
  | _, _ => none

/-- encode.go `structEncoder.encode` -/
def encFields : List (Bytes × Bool × Shape) → List V → Option (List (Bytes × J))
  | [], [] => some []
  | (n, om, s) :: fs, v :: vs =>
    if om && isEmpty v then encFields fs vs
    else
      match encJ s v, encFields fs vs with
      | some j, some l => some ((n, j) :: l)
      | _, _ => none
  | _, _ => none
end

/-- The fields of a struct. -/
def fieldsOf : V → List V
  | .struct l => l
  | _ => []

/-- The elements of a slice. -/
def elemsOf : V → List V
  | .slice l => l
  | _ => []

/-- The value behind a pointer; a new one if it is nil. -/
def pointee (z : V) : V → V
  | .ptr v => v
  | _ => z

/-- The entries of a map. -/
def entriesOf : V → List (Bytes × V)
  | .map l => l
  | _ => []

/-- The bytes of an array. -/
def bytesOf : V → Bytes
  | .array b => b
  | _ => []

def isNull : J → Bool
  | .null => true
  | _ => false

/-- decode.go `literalStore`, a `uint8`. -/
def decByte (old : Byte) : J → Option Byte
  | .null => some old
  | .num lit =>
    match Rows.digitsVal 0 lit with
    | some n => if n < 256 then some (UInt8.ofNat n) else none
    | none => none
  | _ => none

/-- decode.go `array` for an array of `n` bytes: further elements are skipped, missing ones are 0. -/
def readBytes : Nat → Bytes → List J → Option Bytes
  | 0, _, _ => some []
  | n + 1, _, [] => some (List.replicate (n + 1) 0)
  | n + 1, old, j :: js =>
    match decByte (old.headD 0) j with
    | none => none
    | some b => (readBytes n old.tail js).map (b :: ·)

/-- A Go map assignment. -/
def putEntry (k : Bytes) (v : V) : List (Bytes × V) → List (Bytes × V)
  | [] => [(k, v)]
  | (k', v') :: m => if bytesLt k k' then (k, v) :: (k', v') :: m else if k = k' then (k, v) :: m else (k', v') :: putEntry k v m

/-- decode.go `object` for a map: every value is read into a new one. -/
def readEntries (d : J → Option V) : List (Bytes × V) → List (Bytes × J) → Option (List (Bytes × V))
  | m, [] => some m
  | m, (k, j) :: l =>
    match d j with
    | none => none
    | some v => readEntries d (putEntry k v m) l

/-- decode.go `array`: the elements, read over the old ones (simplification: elements beyond the length of the old slice are new). -/
def readElems (d : V → J → Option V) (z : V) : List V → List J → Option (List V)
  | _, [] => some []
  | old, j :: js =>
    match d (old.headD z) j with
    | none => none
    | some v => (readElems d z old.tail js).map (v :: ·)

/-- decode.go `object`: one field of a struct. -/
def setField (ds : List (V → J → Option V)) (i : Nat) (j : J) (vs : List V) : Option (List V) :=
  match ds[i]?, vs[i]? with
  | some d, some old => (d old j).map (vs.set i ·)
  | _, _ => none

/-- The names of the fields. -/
def names (fs : List (Bytes × Bool × Shape)) : List Bytes := fs.map (·.1)

mutual
/-- json.go:221-226 `json.Unmarshal` (decode.go `value`, `literalStore`): null leaves numbers, booleans, strings, times, arrays and structs as they are and makes slices, pointers and maps nil. A list of numbers for a `[]byte` is an error here, which it is not in the library. -/
def decJ : Shape → V → J → Option V
  | .int, old, .null => some old
  | .int, _, .num lit => (Rows.parseInt64 lit).map .int
  | .uint, old, .null => some old
  | .uint, _, .num lit => (decUint 0 (.num lit)).map .uint
  | .bool, old, .null => some old
  | .bool, _, .bool b => some (.bool b)
  | .str, old, .null => some old
  | .str, _, .str s => some (.str s)
  | .bytes, _, .null => some (.bytes none)
  | .bytes, _, .str s => (Rows.decodeField s).map fun b => .bytes (some b)
  | .time, old, .null => some old
  | .time, _, .str s => (parseTime s).map .time
  | .slice _, _, .null => some .nilSlice
  | .slice s, old, .arr l => (readElems (decJ s) (zero s) (elemsOf old) l).map .slice
  | .array _, old, .null => some old
  | .array n, old, .arr l => (readBytes n (bytesOf old) l).map .array
  | .ptr s, old, j => if isNull j then some .nilPtr else (decJ s (pointee (zero s) old) j).map .ptr
  | .map _, _, .null => some .nilMap
  | .map s, old, .obj l => (readEntries (decJ s (zero s)) (entriesOf old) l).map .map
  | .struct _, old, .null => some old
  | .struct fs, old, .obj l => (decFields (names fs) (setField (decJs fs)) (fieldsOf old) l).map .struct
  | _, _, _ => none

/-- The readers of the fields. -/
def decJs : List (Bytes × Bool × Shape) → List (V → J → Option V)
  | [] => []
  | (_, _, s) :: fs => decJ s :: decJs fs
end

/-- json.go:221-226 `inflateObj` -/
def inflate (s : Shape) (j : J) : Option V := decJ s (zero s) j

/-! ## The types of pkg/common -/

/-- policy_common.go:39-42, policies.go:19-23 `PolicyCertificateBase` (and embedded_policies.go:8-10) -/
def baseFields : List (Bytes × Bool × Shape) := [(asc "Version", true, .int)]

/-- policies.go:19-23 `PolicyCertificateBase` -/
def documentFields : List (Bytes × Bool × Shape) := baseFields ++ [(asc "SerialNumber", true, .int), (asc "Domain", true, .str)]

/-- policies.go:91-113 `PolicyAttributes` -/
def attributesShape : Shape :=
  .struct [(asc "AllowedCAs", true, .slice .str), (asc "AllowedSubdomains", true, .slice .str), (asc "DisallowedSubdomains", true, .slice .str), (asc "ExcludedSubdomains", true, .slice .str)]

/-- policies.go:53-66 `PolicyCertificateFields` -/
def certFields : List (Bytes × Bool × Shape) :=
  documentFields ++ [(asc "NotBefore", true, .time), (asc "NotAfter", true, .time), (asc "CanIssue", true, .bool), (asc "CanOwn", true, .bool), (asc "PublicKey", true, .bytes),
    (asc "PublicKeyAlgorithm", true, .int), (asc "SignatureAlgorithm", true, .int), (asc "TimeStamp", true, .time), (asc "PolicyAttributes", true, attributesShape),
    (asc "OwnerSignature", true, .bytes), (asc "OwnerHash", true, .bytes)]

/-- embedded_policies.go:17-22 `SignedEntryTimestamp` -/
def timestampFields : List (Bytes × Bool × Shape) := baseFields ++ [(asc "LogID", true, .bytes), (asc "AddedTS", true, .time), (asc "Signature", true, .bytes)]

/-- policies.go:81-86 `PolicyCertificate` -/
def certShape : Shape :=
  .struct (certFields ++ [(asc "IssuerSignature", true, .bytes), (asc "IssuerHash", true, .bytes), (asc "SPCTs", true, .slice (.struct timestampFields))])

/-- policy_issuance.go:9-11 `PolicyCertificateSigningRequest` -/
def requestShape : Shape := .struct certFields

/-- embedded_policies.go:25-27 `SignedPolicyCertificateTimestamp` -/
def spctShape : Shape := .struct timestampFields

/-- policy_issuance.go:20-22 `PolicyCertificateRevocationSigningRequest` -/
def revocationRequestShape : Shape := .struct [(asc "PolicyCertificateHash", true, .bytes)]

/-- policies.go:115-127 `PolicyCertificateRevocation` -/
def revocationShape : Shape :=
  .struct (documentFields ++ [(asc "TimeStamp", true, .time), (asc "OwnerSignature", true, .bytes), (asc "OwnerHash", true, .bytes),
    (asc "IssuerSignature", true, .bytes), (asc "IssuerHash", true, .bytes), (asc "SPCRTs", true, .slice (.struct timestampFields))])

/-- embedded_policies.go:34-36 `SignedPolicyCertificateRevocationTimestamp` -/
def spcrtShape : Shape := .struct timestampFields

/-- github.com/google/trillian `Proof` (json.go:75, 208) -/
def proofShape : Shape := .struct [(asc "leaf_index", true, .int), (asc "hashes", true, .slice .bytes)]

/-- github.com/google/trillian/types `LogRootV1` (json.go:77, 210) -/
def logRootShape : Shape :=
  .struct [(asc "TreeSize", false, .uint), (asc "RootHash", false, .bytes), (asc "TimestampNanos", false, .uint), (asc "Revision", false, .uint), (asc "Metadata", false, .bytes)]

/-- embedded_policies.go:68-71 `SignedEntryTimestampSignatureInput` -/
def sigInputShape : Shape := .struct (timestampFields ++ [(asc "Entry", false, .bytes)])

end Fpki.Reflect
