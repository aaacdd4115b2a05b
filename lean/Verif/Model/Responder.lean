import Verif.Model.Domain
import Verif.Model.Ids
import Verif.Model.Smt
import Mathlib.Data.List.Forall2

/-!
# Model of `pkg/mapserver/responder/responder.go`, `pkg/mapserver/prover/prover.go` and `pkg/mapserver/common/{structure,domainEntry}.go`

`H` is SHA256. The responder reads a tree that does not change (its own `smt`, loaded once) and the table `domain_payloads`, which may. Signatures of the root, contexts and DB errors are
not modelled.
-/
namespace Fpki.Responder
open Fpki.Smt (Node merkleProof rootHash verifyInclusion verifyNonInclusion)

/-- structure.go:9-12 -/
def PoA : Nat := 0
/-- structure.go:9-12 -/
def PoP : Nat := 1

/-- structure.go:14-28 `MapServerResponse`, `PoI` and domainEntry.go:14-26 `DomainEntry` in one record. `none` as root is nil; `proofKey` and `proofValue` are empty for nil. The two hash columns
`CertIDsID`, `PolicyIDsID` and the signature are left out: nothing in the verification reads them. -/
structure Response where
  domainName : Bytes
  domainID : Bytes
  domainValue : Bytes
  certIDs : Bytes
  policyIDs : Bytes
  proofType : Nat
  proof : List Bytes
  root : Option Bytes
  proofKey : Bytes
  proofValue : Bytes
deriving DecidableEq

/-- prover.go:14-26 `VerifyProofByDomain`: the type and the outcome; `none` is the error for different values. -/
def verifyProofByDomain (H : Bytes → Bytes) (r : Response) : Option (Nat × Bool) :=
  if r.proofType = PoP then
    if r.domainValue ≠ r.proofValue then none
    else some (PoP, verifyInclusion H 256 (r.root.getD []) r.proof r.domainID r.domainValue)
  else some (PoA, verifyNonInclusion H 256 r.root r.proof r.domainID r.proofValue r.proofKey)

/-- A row of `domain_payloads`: the glued certificate IDs and policy IDs; NULL is read as the empty slice (certs.go:231-247, policies.go:121-137). Without a row both are empty
(`sql.ErrNoRows` is not an error there). -/
structure Row where
  certIDs : Bytes
  policyIDs : Bytes
deriving DecidableEq

/-- responder.go:103-105: all IDs of the row. -/
def Row.ids (r : Row) : List Bytes := Ids.bytesToIDs r.certIDs ++ Ids.bytesToIDs r.policyIDs

/-- responder.go:75-122: the answer for one part of the name. A relation, because `SortIDsAndGlue` is one. -/
def AnswerFor (H : Bytes → Bytes) (t : Node) (table : Bytes → Row) (part : Bytes) (a : Response) : Prop :=
  let id := H part
  let p := merkleProof H 256 256 t id
  if p.included then
    ∃ v, Ids.SortIDsAndGlue (table id).ids v ∧
      a = ⟨part, id, H v, (table id).certIDs, (table id).policyIDs, PoP, p.path, rootHash H 256 t, p.key.getD [], p.value.getD []⟩
  else
    a = ⟨part, id, List.replicate 32 0, [], [], PoA, p.path, rootHash H 256 t, p.key.getD [], p.value.getD []⟩

/-- responder.go:65-125 `GetProof`; `none` is the error of the parser. -/
def GetProof (H : Bytes → Bytes) (psl : Domain.Psl) (t : Node) (table : Bytes → Row) (name : Bytes) (out : Option (List Response)) : Prop :=
  match Domain.parseDomainName psl name with
  | none => out = none
  | some parts => ∃ as, List.Forall₂ (AnswerFor H t table) parts as ∧ out = some as

end Fpki.Responder
