import Verif.Model.Reflect
import Verif.Model.Responder
/-!
The answers of the map server on the wire: `pkg/mapserver/mapserver.go` (HTTP), `pkg/grpc/grpcserver/grpcserver.go` and `pkg/grpc/grpcclient/grpcclient.go` (gRPC), and what the client's check in
`pkg/mapserver/prover/prover.go` does with them, nil pointers and indices out of range included. The transport (HTTP, TLS, the protobuf message that carries the bytes) is not modelled.
-/
namespace Fpki.Wire

open Fpki.Json Fpki.Reflect
open Fpki.Domain (asc)
open Fpki.Smt (heightByte defaultLeaf)
open Fpki.Responder (PoA PoP Response)

/-- domainEntry.go:14-25 `DomainEntry`; a slice that is nil is `none`. -/
structure Entry where
  name : Bytes
  id : Bytes
  value : Bytes
  certIDsID : Bytes
  certIDs : Option Bytes
  policyIDsID : Bytes
  policyIDs : Option Bytes
deriving DecidableEq

/-- structure.go:14-28 `MapServerResponse` and `PoI`; the pointer to the entry may be nil. -/
structure Answer where
  entry : Option Entry
  proofType : Int
  proof : Option (List (Option Bytes))
  root : Option Bytes
  proofKey : Option Bytes
  proofValue : Option Bytes
  sig : Option Bytes
deriving DecidableEq

/-! ## As reflection shows them -/

/-- domainEntry.go:14-25; `SHA256Output` is `[32]byte` (pkg/common/hasher.go:12). -/
def entryShape : Shape :=
  .struct [(asc "DomainName", false, .str), (asc "DomainID", false, .array 32), (asc "DomainValue", false, .array 32), (asc "CertIDsID", false, .array 32),
    (asc "CertIDs", false, .bytes), (asc "PolicyIDsID", false, .array 32), (asc "PolicyIDs", false, .bytes)]

/-- structure.go:22-28 `PoI` -/
def poiShape : Shape :=
  .struct [(asc "ProofType", false, .int), (asc "Proof", false, .slice .bytes), (asc "Root", false, .bytes), (asc "ProofKey", false, .bytes), (asc "ProofValue", false, .bytes)]

/-- structure.go:14-19 `MapServerResponse` -/
def answerShape : Shape := .struct [(asc "DomainEntry", false, .ptr entryShape), (asc "PoI", false, poiShape), (asc "TreeHeadSig", false, .bytes)]

/-- grpcserver.go:29-31 `GRPCProofs` -/
def proofsShape : Shape := .struct [(asc "Proofs", false, .slice (.ptr answerShape))]

/-- domainEntry.go:14-25 -/
def entryV (e : Entry) : V := .struct [.str e.name, .array e.id, .array e.value, .array e.certIDsID, .bytes e.certIDs, .array e.policyIDsID, .bytes e.policyIDs]

/-- structure.go:16: the pointer. -/
def entryPtrV : Option Entry → V
  | none => .nilPtr
  | some e => .ptr (entryV e)

/-- structure.go:24: the path. -/
def pathV : Option (List (Option Bytes)) → V
  | none => .nilSlice
  | some l => .slice (l.map .bytes)

/-- structure.go:14-28 -/
def answerV (a : Answer) : V :=
  .struct [entryPtrV a.entry, .struct [.int a.proofType, pathV a.proof, .bytes a.root, .bytes a.proofKey, .bytes a.proofValue], .bytes a.sig]

/-- A `[]byte`. -/
def bytesV : V → Option Bytes
  | .bytes b => b
  | _ => none

/-- domainEntry.go:14-25 -/
def entryOf : V → Option Entry
  | .ptr (.struct [.str n, .array i, .array v, .array ci, .bytes c, .array pi, .bytes p]) => some ⟨n, i, v, ci, c, pi, p⟩
  | _ => none

/-- structure.go:14-28 -/
def answerOf : V → Answer
  | .struct [e, .struct [.int t, p, .bytes r, .bytes k, .bytes v], .bytes s] =>
    ⟨entryOf e, t, match p with
      | .slice l => some (l.map bytesV)
      | _ => none, r, k, v, s⟩
  | _ => ⟨none, 0, none, none, none, none, none⟩

/-! ## HTTP -/

/-- mapserver.go:242-243: `Encode` writes the text and a line feed. -/
def httpBody (as : List Answer) : Option Bytes :=
  match encJ (.slice (.ptr answerShape)) (.slice (as.map fun a => .ptr (answerV a))) with
  | none => none
  | some j => some (render j ++ [0x0A])

/-- An HTTP answer with its status. -/
inductive Reply
  | ok (body : Bytes)
  | badRequest
  | internal
deriving DecidableEq

/-- mapserver.go:233-248 `apiGetProof`; `proofs` is the outcome of `GetProof`. -/
def apiGetProof (proofs : Option (List Answer)) : Reply :=
  match proofs with
  | none => .badRequest
  | some as =>
    match httpBody as with
    | none => .internal
    | some x => .ok x

/-- stream.go `Decoder.Decode`: the first value of the stream. -/
def parseFirst (s : Bytes) : Option J := (parseValue (2 * s.length + 2) s).map (·.1)

/-- tests/integration/mapserver/main.go:135-137: the client of the HTTP API reads the body into a `[]MapServerResponse`. -/
def readHttp (s : Bytes) : Option (List Answer) :=
  match parseFirst s with
  | none => none
  | some j =>
    match inflate (.slice answerShape) j with
    | none => none
    | some v => some ((elemsOf v).map answerOf)

/-! ## gRPC -/

/-- grpcserver.go:34-51 `QueryMapEntries`: the bytes of the proofs in the reply; `none` is an error. -/
def queryMapEntries (proofs : Option (List Answer)) : Option Bytes :=
  match proofs with
  | none => none
  | some as => (encJ proofsShape (.struct [.slice (as.map fun a => .ptr (answerV a))])).map render

/-- A `*MapServerResponse`, which may be nil. -/
def ptrOf : V → Option Answer
  | .ptr v => some (answerOf v)
  | _ => none

/-- grpcclient.go:46-53 `GetProofs`, after the call. -/
def getProofs (s : Bytes) : Option (List (Option Answer)) :=
  match parse s with
  | none => none
  | some j =>
    match inflate proofsShape j with
    | none => none
    | some v => some ((elemsOf ((fieldsOf v).headD .nilSlice)).map ptrOf)

/-! ## The check of the client -/

/-- util.go:27-29 `bitIsSet`; `none` is a panic: the index is out of range. -/
def bit? (bits : Bytes) (i : Nat) : Option Bool := if i / 8 < bits.length then some (bitIsSet bits i) else none

/-- trie_merkle_proof.go:137-145 `verifyInclusion`; the path is in the order in which it is used. -/
def pathHash? (H : Bytes → Bytes) (key : Bytes) : Nat → List Bytes → Bytes → Option Bytes
  | _, [], leafHash => some leafHash
  | i, s :: rest, leafHash =>
    match bit? key i with
    | none => none
    | some b =>
      match pathHash? H key (i + 1) rest leafHash with
      | none => none
      | some h => some (if b then H (s ++ h) else H (h ++ s))

/-- trie_merkle_proof.go:131-134 `VerifyInclusion` -/
def included? (H : Bytes → Bytes) (root : Bytes) (ap : List Bytes) (key value : Bytes) : Option Bool :=
  (pathHash? H key 0 ap.reverse (H (key ++ value ++ [heightByte 256 ap.length]))).map (root == ·)

/-- trie_merkle_proof.go:165-171: the loop, with `k` bits to go from bit `b`. -/
def sameBits? (key proofKey : Bytes) : Nat → Nat → Option Bool
  | 0, _ => some true
  | k + 1, b =>
    match bit? key b, bit? proofKey b with
    | some x, some y => if x = y then sameBits? key proofKey k (b + 1) else some false
    | _, _ => none

/-- trie_merkle_proof.go:149-174 `VerifyNonInclusion` -/
def notIncluded? (H : Bytes → Bytes) (root : Option Bytes) (ap : List Bytes) (key value proofKey : Bytes) : Option Bool :=
  match root with
  | none => some true
  | some root =>
    if proofKey.isEmpty then (pathHash? H key 0 ap.reverse defaultLeaf).map (root == ·)
    else
      match included? H root ap proofKey value with
      | none => none
      | some false => some false
      | some true => sameBits? key proofKey ap.length 0

/-- The outcome of `VerifyProofByDomain`. -/
inductive Verdict
  | panic
  | err
  | ok (type : Nat) (right : Bool)
deriving DecidableEq

/-- The nodes of the path; `append` and hashing treat nil as empty. -/
def Answer.path (a : Answer) : List Bytes := (a.proof.getD []).map (·.getD [])

/-- prover.go:14-26 `VerifyProofByDomain`, with its panics: the response or its entry may be nil. -/
def verify (H : Bytes → Bytes) : Option Answer → Verdict
  | none => .panic
  | some a =>
    match a.entry with
    | none => .panic
    | some e =>
      if a.proofType = (PoP : Int) then
        if e.value ≠ a.proofValue.getD [] then .err
        else
          match included? H (a.root.getD []) a.path e.id e.value with
          | none => .panic
          | some b => .ok PoP b
      else
        match notIncluded? H a.root a.path e.id (a.proofValue.getD []) (a.proofKey.getD []) with
        | none => .panic
        | some b => .ok PoA b

end Fpki.Wire
