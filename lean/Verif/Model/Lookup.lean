import Verif.Model.Domain
import Verif.Model.Chains
import Mathlib.Data.List.Dedup

/-!
# Model of the names under which certificates are stored: `pkg/util/domain.go`

What is asked for by clients is `Domain.parseDomainName` (`pkg/domain/domain.go`).
-/
namespace Fpki.Lookup

/-- pkg/util/domain.go:8-23 `ExtractCertDomains`: the common name, if there is one, and the DNS names, each once, in the arbitrary order of a map. The names are taken as they are in the
certificate. -/
def ExtractCertDomains (commonName : Bytes) (dnsNames : List Bytes) (out : List Bytes) : Prop :=
  out.Perm ((if commonName.length ≠ 0 then [commonName] else []) ++ dnsNames).dedup

/-- pkg/domain/domain.go:140-150 `CertSubjectName` -/
def certSubjectName (commonName : Bytes) (dnsNames : List Bytes) : Bytes :=
  if commonName ≠ [] then commonName
  else (dnsNames.find? (fun n => n ≠ [])).getD []

end Fpki.Lookup
