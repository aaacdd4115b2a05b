import Verif.Model.EndToEnd
import Verif.Model.PolicyText
/-!
# Model of `mapserver -policyFile`: `cmd/mapserver/main.go` `insertPolicyFromFile`

The command reads a policy certificate from a file and submits it to the DB of a map server. Not modelled: reading the configuration, the messages about the root.
-/
namespace Fpki.PolicyFile
open Fpki.E2E (Op)
open Fpki.Policy (Cert)
open Fpki.PolicyText (readCert certText)

/-- policy_common.go:23-29 `rawTemplate`, policies.go:26 `Domain`, policies.go:87-89 `Raw`, updater.go:408-416: the subject and the payload that are submitted for a certificate that
keeps no copy of its text; `none` is an error of `Raw`. -/
def document (c : Cert) : Option (Bytes × Bytes) := (certText c).map fun x => (c.domain, x)

/-- cmd/mapserver/main.go:77-114 `insertPolicyFromFile`, io.go:138-153 `PolicyCertificateFromFile`: what the command does if it is not interrupted, for a file with these contents: it submits the
policy, calls the coalescing for the partitions `parts`, again and again, and updates the tree. With an error it does nothing. -/
def insertPolicy (maxLen : Nat) (data : Bytes) (parts : List Nat) : List Op :=
  match readCert data with
  | none => []
  | some c =>
    match document c with
    | none => []
    | some d => [.policies (some maxLen) [d] 4] ++ parts.map .coalesce ++ [.finish]

end Fpki.PolicyFile
