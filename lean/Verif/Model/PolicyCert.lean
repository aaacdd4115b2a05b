import Verif.Model.PolicyAttr

/-!
# Model of policy certificates and of `pkg/common/crypto/crypto.go`

A Go `[]byte` is `Option Bytes`: `none` is nil. The JSON text of a certificate, SHA256 and RSA (PKCS #1 v1.5) are parameters (`Env`); what is assumed about them is in the hypotheses of the theorems. What `encoding/json` does not show of a certificate is removed by `norm`.
-/
namespace Fpki.Policy

open Fpki.PolicyAttr (Attributes)
open Fpki.Domain (dot)

/-- `time.Time`: the instant in nanoseconds, the zone offset (shown in the JSON text), the pointer to the location, and the monotonic clock reading. -/
structure Time where
  ns : Int
  off : Int
  loc : Nat
  mono : Option Int
deriving DecidableEq, Repr

/-- embedded_policies.go:17-27 `SignedEntryTimestamp`, `SignedPolicyCertificateTimestamp`; `raw` is the `JSONField`, which is not part of the JSON text. -/
structure Spct where
  raw : Option Bytes
  version : Int
  logID : Option Bytes
  addedTS : Time
  signature : Option Bytes
deriving DecidableEq, Repr

/-- policies.go:19-23, 53-66 `PolicyCertificateFields`, also policy_issuance.go:9-11 `PolicyCertificateSigningRequest` (no other fields). -/
structure Fields where
  raw : Option Bytes
  version : Int
  serial : Int
  domain : Bytes
  notBefore : Time
  notAfter : Time
  canIssue : Bool
  canOwn : Bool
  publicKey : Option Bytes
  publicKeyAlgorithm : Int
  signatureAlgorithm : Int
  timeStamp : Time
  attributes : Attributes
  ownerSignature : Option Bytes
  ownerHash : Option Bytes
deriving DecidableEq, Repr

/-- policies.go:81-86 `PolicyCertificate`. A nil list of SPCTs and an empty one are not distinguished (the code never does). -/
structure Cert extends Fields where
  issuerSignature : Option Bytes
  issuerHash : Option Bytes
  spcts : List Spct
deriving DecidableEq, Repr

/-- A continuation byte in the given range. -/
def between (lo hi c : Byte) : Bool := lo ≤ c && c ≤ hi

/-- unicode/utf8 `DecodeRuneInString`: the length of the valid UTF-8 sequence at the beginning, 0 if there is none (accepted ranges as in the table `first`). -/
def runeWidth : Bytes → Nat
  | [] => 0
  | b0 :: t =>
    if b0 < 0x80 then 1
    else if between 0xC2 0xDF b0 && (t[0]?).any (between 0x80 0xBF) then 2
    else if ((b0 == 0xE0 && (t[0]?).any (between 0xA0 0xBF)) || ((between 0xE1 0xEC b0 || between 0xEE 0xEF b0) && (t[0]?).any (between 0x80 0xBF)) ||
        (b0 == 0xED && (t[0]?).any (between 0x80 0x9F))) && (t[1]?).any (between 0x80 0xBF) then 3
    else if ((b0 == 0xF0 && (t[0]?).any (between 0x90 0xBF)) || (between 0xF1 0xF3 b0 && (t[0]?).any (between 0x80 0xBF)) || (b0 == 0xF4 && (t[0]?).any (between 0x80 0x8F))) &&
        (t[1]?).any (between 0x80 0xBF) && (t[2]?).any (between 0x80 0xBF) then 4
    else 0

/-- `k` more bytes belong to the present rune. -/
def fixUtf8From : Nat → Bytes → Bytes
  | _, [] => []
  | k + 1, b :: t => b :: fixUtf8From k t
  | 0, b :: t =>
    match runeWidth (b :: t) with
    | 0 => 0xEF :: 0xBF :: 0xBD :: fixUtf8From 0 t
    | n + 1 => b :: fixUtf8From n t

/-- encoding/json: bytes of a string that are not valid UTF-8 are replaced by U+FFFD, one for each byte. -/
def fixUtf8 (s : Bytes) : Bytes := fixUtf8From 0 s

/-- `omitempty`: a nil and an empty byte slice give the same text. -/
def normBytes : Option Bytes → Option Bytes
  | some [] => none
  | b => b

/-- Only the instant and the offset are shown. -/
def Time.norm (t : Time) : Time := ⟨t.ns, t.off, 0, none⟩

def Spct.norm (s : Spct) : Spct := ⟨none, s.version, normBytes s.logID, s.addedTS.norm, normBytes s.signature⟩

def normAttr (a : Attributes) : Attributes := ⟨a.allowedCAs.map fixUtf8, a.allowed.map fixUtf8, a.disallowed.map fixUtf8, a.excluded.map fixUtf8⟩

def Fields.norm (f : Fields) : Fields :=
  { raw := none, version := f.version, serial := f.serial, domain := fixUtf8 f.domain, notBefore := f.notBefore.norm, notAfter := f.notAfter.norm,
    canIssue := f.canIssue, canOwn := f.canOwn, publicKey := normBytes f.publicKey, publicKeyAlgorithm := f.publicKeyAlgorithm, signatureAlgorithm := f.signatureAlgorithm,
    timeStamp := f.timeStamp.norm, attributes := normAttr f.attributes, ownerSignature := normBytes f.ownerSignature, ownerHash := normBytes f.ownerHash }

/-- What the JSON text of a certificate shows. -/
def Cert.norm (c : Cert) : Cert := { toFields := c.toFields.norm, issuerSignature := normBytes c.issuerSignature, issuerHash := normBytes c.issuerHash, spcts := c.spcts.map Spct.norm }

/-- The libraries: `common.ToJSON` of a pointer to a certificate (an error is possible, e.g. a year beyond 9999), SHA256, parsing a DER public key, verifying and creating a signature (over the SHA256 of the message). -/
structure Env (Key Pub : Type) where
  enc : Cert → Option Bytes
  H : Bytes → Bytes
  parsePub : Bytes → Option Pub
  verify : Pub → Bytes → Bytes → Bool
  sign : Key → Bytes → Option Bytes

variable {Key Pub : Type}

/-- crypto.go:319-329 `ComputeHashAsSigner`; the certificate is restored in all cases. -/
def computeHashAsSigner (E : Env Key Pub) (p : Cert) : Option Bytes := (E.enc { p with spcts := [], issuerSignature := none }).map E.H

/-- policies.go:307-327 `NewPolicyCertificateFromRequest` -/
def certFromRequest (req : Fields) : Cert := { toFields := { req with raw := none }, issuerSignature := none, issuerHash := none, spcts := [] }

/-- crypto.go:69-99 `SignAsOwner`: the modified request, or `none` for an error, with the request as before. -/
def signAsOwner (E : Env Key Pub) (owner : Cert) (key : Key) (req : Fields) : Option Fields :=
  if req.ownerSignature ≠ none ∨ req.ownerHash ≠ none then none
  else if !owner.canOwn then none
  else
    match computeHashAsSigner E owner with
    | none => none
    | some h =>
      match E.enc (certFromRequest { req with ownerHash := some h }) with
      | none => none
      | some m =>
        match E.sign key m with
        | none => none
        | some s => some { req with ownerHash := some h, ownerSignature := some s }

/-- crypto.go:134-138: the fields that the owner signature does not cover are removed. -/
def Cert.withoutForOwner (c : Cert) : Cert := { c with spcts := [], issuerSignature := none, issuerHash := none, ownerSignature := none }

/-- crypto.go:112-153 `VerifyOwnerSignatureInPolicyCertificate`: whether it returns nil, and the certificate afterwards (the removed fields are not restored if the JSON text cannot be made). -/
def verifyOwner (E : Env Key Pub) (owner c : Cert) : Bool × Cert :=
  match computeHashAsSigner E owner with
  | none => (false, c)
  | some h =>
    if c.ownerHash.getD [] ≠ h then (false, c)
    else
      match E.parsePub (owner.publicKey.getD []) with
      | none => (false, c)
      | some pub =>
        match E.enc c.withoutForOwner with
        | none => (false, c.withoutForOwner)
        | some m => (E.verify pub m (c.ownerSignature.getD []), c)

/-- crypto.go:102-110 `VerifyOwnerSignature` -/
def verifyOwnerRequest (E : Env Key Pub) (owner : Cert) (req : Fields) : Bool := (verifyOwner E owner (certFromRequest req)).1

/-- crypto.go:194-222 `SignPolicyCertificateAsIssuer`: the modified certificate, or `none` for an error, with the certificate as before. -/
def signAsIssuer (E : Env Key Pub) (issuer : Cert) (key : Key) (child : Cert) : Option Cert :=
  if child.issuerSignature ≠ none ∨ child.issuerHash ≠ none then none
  else
    match computeHashAsSigner E issuer with
    | none => none
    | some h =>
      match E.enc { child with issuerHash := some h } with
      | none => none
      | some m =>
        match E.sign key m with
        | none => none
        | some s => some { child with issuerHash := some h, issuerSignature := some s }

/-- crypto.go:157-186 `SignRequestAsIssuer` -/
def signRequestAsIssuer (E : Env Key Pub) (issuer : Cert) (key : Key) (req : Fields) : Option Cert := signAsIssuer E issuer key (certFromRequest req)

/-- crypto.go:264-305 `VerifyIssuerSignature`: whether it returns nil, and the certificate afterwards (the signature is not restored if the JSON text cannot be made). -/
def verifyIssuer (E : Env Key Pub) (issuer child : Cert) : Bool × Cert :=
  match computeHashAsSigner E issuer with
  | none => (false, child)
  | some h =>
    if child.issuerHash.getD [] ≠ h then (false, child)
    else
      match E.parsePub (issuer.publicKey.getD []) with
      | none => (false, child)
      | some pub =>
        match E.enc { child with issuerSignature := none } with
        | none => (false, { child with issuerSignature := none })
        | some m => (E.verify pub m (child.issuerSignature.getD []), child)

/-- crypto.go:226-261 `VerifyIssuerConstraints`: does it return nil? The regular expression is not anchored and matches the empty string, so it matches every name. -/
def verifyIssuerConstraints (issuer child : Cert) : Bool :=
  if child.notBefore.ns < issuer.notBefore.ns then false
  else if issuer.notAfter.ns < child.notAfter.ns then false
  else if issuer.domain ≠ [] then true
  else if issuer.domain = child.domain then true
  else if !(dot :: issuer.domain).isSuffixOf child.domain then false
  else true

end Fpki.Policy
