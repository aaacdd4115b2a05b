import Verif.Model.PolicyCert

/-!
# Model of the `Equal` methods of `pkg/common`
-/
namespace Fpki.Policy

/-- bytes.Equal: nil and empty are equal. -/
def bytesEqual (a b : Option Bytes) : Bool := a.getD [] == b.getD []

/-- time.Time.Equal -/
def Time.equal (a b : Time) : Bool := a.ns == b.ns

/-- policies.go:402-412 `equalStringSlices` -/
def equalStringSlices (a b : List Bytes) : Bool := if a.length ≠ b.length then false else (a.zip b).all (fun x => x.1 == x.2)

/-- policies.go:420-430 `equalSlices` -/
def equalSlices {T : Type} (eq : T → T → Bool) (a b : List T) : Bool := if a.length ≠ b.length then false else (a.zip b).all (fun x => eq x.1 x.2)

/-- embedded_policies.go:12-14, 61-66, 110-112, 130-132 `SignedEntryTimestamp.Equal` (also of the certificate and revocation time stamps) -/
def Spct.equal (s x : Spct) : Bool := s.version == x.version && bytesEqual s.logID x.logID && s.addedTS.equal x.addedTS && bytesEqual s.signature x.signature

/-- policies.go:336-342 `PolicyAttributes.Equal` -/
def attrEqual (s o : PolicyAttr.Attributes) : Bool :=
  equalStringSlices s.allowedCAs o.allowedCAs && equalStringSlices s.allowed o.allowed && equalStringSlices s.disallowed o.disallowed && equalStringSlices s.excluded o.excluded

/-- policies.go:27-31, 249-262 `PolicyCertificateFields.Equal` -/
def Fields.equal (c x : Fields) : Bool :=
  (c.version == x.version && c.serial == x.serial && c.domain == x.domain) && c.publicKeyAlgorithm == x.publicKeyAlgorithm && bytesEqual c.publicKey x.publicKey &&
  c.notBefore.equal x.notBefore && c.notAfter.equal x.notAfter && c.canIssue == x.canIssue && c.canOwn == x.canOwn && c.signatureAlgorithm == x.signatureAlgorithm &&
  c.timeStamp.equal x.timeStamp && bytesEqual c.ownerSignature x.ownerSignature && bytesEqual c.ownerHash x.ownerHash && attrEqual c.attributes x.attributes

/-- policies.go:329-334 `PolicyCertificate.Equal` -/
def Cert.equal (c x : Cert) : Bool := c.toFields.equal x.toFields && bytesEqual c.issuerSignature x.issuerSignature && bytesEqual c.issuerHash x.issuerHash && equalSlices Spct.equal c.spcts x.spcts

/-- policies.go:114-127 `PolicyCertificateRevocation` (with its fields). -/
structure Revocation where
  raw : Option Bytes
  version : Int
  serial : Int
  domain : Bytes
  timeStamp : Time
  ownerSignature : Option Bytes
  ownerHash : Option Bytes
  issuerSignature : Option Bytes
  issuerHash : Option Bytes
  spcrts : List Spct
deriving DecidableEq, Repr

/-- policies.go:364-369, 395-400 `PolicyCertificateRevocation.Equal`; the time stamps are compared with `==`, which compares the whole structure. -/
def Revocation.equal (c x : Revocation) : Bool :=
  (c.version == x.version && c.serial == x.serial && c.domain == x.domain) && decide (c.timeStamp = x.timeStamp) && bytesEqual c.ownerSignature x.ownerSignature && bytesEqual c.ownerHash x.ownerHash &&
  bytesEqual c.issuerSignature x.issuerSignature && bytesEqual c.issuerHash x.issuerHash && equalSlices Spct.equal c.spcrts x.spcrts

/-- What comes back from the JSON text of a revocation (see `Cert.norm`); 0 is the location UTC (a time in another zone would get a new location, which this does not show; the positive theorem is about UTC). -/
def Revocation.norm (c : Revocation) : Revocation :=
  { raw := none, version := c.version, serial := c.serial, domain := fixUtf8 c.domain, timeStamp := c.timeStamp.norm, ownerSignature := normBytes c.ownerSignature, ownerHash := normBytes c.ownerHash,
    issuerSignature := normBytes c.issuerSignature, issuerHash := normBytes c.issuerHash, spcrts := c.spcrts.map Spct.norm }

end Fpki.Policy
