import Verif.Model.Pca

/-!
# Model of `pkg/domainowner/domainowner.go` and of the time stamps of `pkg/common/crypto/crypto.go`

The environment (`Env`: JSON text, SHA256, RSA) is that of `Verif.Model.PolicyCert`. The exported field `DomainRoots` is set by the user only. Pointers in it are not nil.
-/
namespace Fpki.Owner

open Fpki.Policy

variable {Key Pub : Type}

/-- domainowner.go:19-26 `DomainOwner`, `CertKey` -/
structure Owner (Key : Type) where
  roots : Bytes → Option (Cert × Key)

/-- domainowner.go:29-33 `NewDomainOwner` -/
def newOwner : Owner Key := ⟨fun _ => none⟩

/-- The user's `do.DomainRoots[d] = CertKey{c, k}` (domainowner.go:20: an exported map; no function of the package writes it). -/
def setRoot (o : Owner Key) (d : Bytes) (c : Cert) (k : Key) : Owner Key := ⟨fun x => if x = d then some (c, k) else o.roots x⟩

/-- time.Time.Add(time.Microsecond), as used at domainowner.go:59 -/
def addMicrosecond (t : Time) : Time := { t with ns := t.ns + 1000, mono := t.mono.map (· + 1000) }

/-- domainowner.go:54-69, policy_issuance.go:27-62: the request before the owner signs it. `n1`, `n2`, `n3` are what the three calls of `time.Now` return; `common.RSA` and `common.SHA256` are 0 (crypto.go:7-16). -/
def freshRequest (version : Int) (domain pk : Bytes) (n1 n2 n3 : Time) : Fields :=
  { raw := none, version := version, serial := 0, domain := domain, notBefore := n1, notAfter := addMicrosecond n2, canIssue := false, canOwn := false, publicKey := some pk,
    publicKeyAlgorithm := 0, signatureAlgorithm := 0, timeStamp := n3, attributes := ⟨[], [], [], []⟩, ownerSignature := none, ownerHash := none }

/-- domainowner.go:38-90 `GeneratePolCertSignRequest`: the request (`none` for an error) and the owner afterwards. `fresh` is the new key pair, `none` if it cannot be generated; `pubOf` is `util.RSAPublicToDERBytes` of its public part. -/
def generate (E : Env Key Pub) (pubOf : Key → Option Bytes) (o : Owner Key) (fresh : Option Key) (domain : Bytes) (version : Int) (n1 n2 n3 : Time) : Option Fields × Owner Key :=
  match fresh with
  | none => (none, o)
  | some k =>
    match pubOf k with
    | none => (none, o)
    | some pk =>
      match o.roots domain with
      | none => (some (freshRequest version domain pk n1 n2 n3), o)
      | some root => (signAsOwner E root.1 root.2 (freshRequest version domain pk n1 n2 n3), o)

/-! ## Time stamps of log servers -/

/-- embedded_policies.go:68-71 `SignedEntryTimestampSignatureInput` (the JSON field of the base is not part of the text and always empty) -/
structure SptInput where
  version : Int
  logID : Option Bytes
  addedTS : Time
  signature : Option Bytes
  entry : Bytes
deriving DecidableEq, Repr

/-- What the JSON text of the input shows: `Entry` has no `omitempty`, the other slices have. -/
def SptInput.norm (i : SptInput) : SptInput := ⟨i.version, normBytes i.logID, i.addedTS.norm, normBytes i.signature, i.entry⟩

/-- embedded_policies.go:73-87 `NewSignedEntryTimestampSignatureInput` -/
def sptInput (entry : Bytes) (s : Spct) : SptInput := ⟨s.version, s.logID, s.addedTS, s.signature, entry⟩

/-- embedded_policies.go:42-59, 94-108 `NewSignedPolicyCertificateTimestamp` -/
def newSpct (version : Int) (logID : Option Bytes) (ts : Time) (signature : Option Bytes) : Spct := ⟨none, version, logID, ts, signature⟩

/-- crypto.go:47-54 `SignBytes` -/
def signBytes (E : Env Key Pub) (b : Bytes) (key : Key) : Option Bytes := E.sign key b

/-- crypto.go:56-63 `VerifySignedBytes`: does it return nil? -/
def verifySignedBytes (E : Env Key Pub) (b sig : Bytes) (pub : Pub) : Bool := E.verify pub b sig

/-- crypto.go:19-45 `SignPolicyCertificateTimestamp`: `encIn` is `common.ToJSON` of a signature input, `now` what `time.Now` returns; `none` is an error. -/
def signSpct (E : Env Key Pub) (encIn : SptInput → Option Bytes) (pc : Cert) (version : Int) (logId : Option Bytes) (key : Key) (now : Time) : Option Spct :=
  match E.enc pc with
  | none => none
  | some text =>
    match encIn (sptInput text (newSpct version logId now none)) with
    | none => none
    | some m =>
      match signBytes E m key with
      | none => none
      | some sig => some { newSpct version logId now none with signature := some sig }

end Fpki.Owner
