import Verif.Model.PolicyCert

/-!
# Model of `pkg/pca/pca.go`

The log servers (`LogServerRequester`) are arbitrary functions, chosen anew for every call of `SignAndLogRequest`; they are given the position of the request so that a server asked twice may answer differently. They do not change the certificate they are given. A Go map is iterated in an arbitrary order, which is a parameter.
-/
namespace Fpki.Pca

open Fpki.Policy

variable {Key Pub : Type}

/-- config.go:17-23 `CTLogServerEntryConfig` (without the name) -/
structure Log where
  url : Bytes
  publicKey : Bytes
deriving DecidableEq, Repr

/-- pca.go:23-31 `PCA` (without name and requester) -/
structure Pca (Key : Type) where
  root : Cert
  key : Key
  logs : List (Bytes × Log)
  db : Bytes → Option Cert
  serial : Int

/-- `m[k] = v` for a map given as a list without equal keys. -/
def insertLog (m : List (Bytes × Log)) (k : Bytes) (l : Log) : List (Bytes × Log) := m.filter (fun e => e.1 ≠ k) ++ [(k, l)]

/-- pca.go:74-79: the servers of the configuration, per hash of the public key (Go 1.22 or later: a new loop variable each time). -/
def loadLogs (E : Env Key Pub) (config : List Log) : List (Bytes × Log) := config.foldl (fun m l => insertLog m (E.H l.publicKey) l) []

/-- pca.go:46-90 `NewPCA`, given the parsed configuration; `pubOf` is `util.RSAPublicToDERBytes` of the public part of the key. -/
def newPca (E : Env Key Pub) (pubOf : Key → Bytes) (cert : Cert) (key : Key) (config : List Log) : Option (Pca Key) :=
  if cert.publicKey.getD [] ≠ pubOf key then none
  else some ⟨cert, key, loadLogs E config, fun _ => none, 0⟩

/-- pca.go:92-145, 269-271 `NewPolicyCertificateSigningRequest`: its arguments are given as a request (serial number, time stamp and owner signature are not used), with the result of `time.Now` and the function that asks the owner for a signature. -/
def newRequest (E : Env Key Pub) (p : Pca Key) (args : Fields) (now : Time) (ownerSign : Bytes → Option Bytes) : Option Fields × Pca Key :=
  if args.notBefore.ns < p.root.notBefore.ns then (none, p)
  else if p.root.notAfter.ns < args.notAfter.ns then (none, p)
  else
    let p' := { p with serial := p.serial + 1 }
    let req := { args with raw := none, serial := p'.serial, timeStamp := now, ownerSignature := none }
    match E.enc (certFromRequest req) with
    | none => (none, p')
    | some m => (some { req with ownerSignature := ownerSign m }, p')

/-- pca.go:190-214 `canSkipCoolOffPeriod`; `none` is an error -/
def canSkip (E : Env Key Pub) (p : Pca Key) (req : Fields) : Option Bool :=
  if (req.ownerSignature.getD []).length = 0 then some false
  else if (req.ownerHash.getD []).length ≠ 32 then none
  else
    match p.db (req.ownerHash.getD []) with
    | none => some false
    | some stored => if verifyOwnerRequest E stored req then some true else none

/-- The answer to a request for a time stamp: an error, a nil pointer, or a time stamp. -/
inductive Answer
  | err
  | nil
  | spct (s : Spct)
deriving DecidableEq, Repr

/-- `LogServerRequester`: the answers in one call of `SignAndLogRequest`. -/
structure Servers where
  obtain : Nat → Bytes → Cert → Answer
  send : Nat → Bytes → Cert → Bool

inductive Outcome (α : Type)
  | ok (a : α)
  | err
  | panic
deriving DecidableEq, Repr

/-- What the log servers saw. -/
inductive Event
  | asked (url : Bytes) (c : Cert)
  | final (url : Bytes) (c : Cert)
deriving DecidableEq, Repr

/-- pca.go:223-243 `sendRequestToAllLogServers`, from the `i`-th server on (`nil`: the pointer is dereferenced). -/
def askLogs (sv : Servers) (pc : Cert) : Nat → List (Bytes × Log) → Outcome (List Spct) × List Event
  | _, [] => (.ok [], [])
  | i, l :: ls =>
    match sv.obtain i l.2.url pc with
    | .err => (.err, [.asked l.2.url pc])
    | .nil => (.panic, [.asked l.2.url pc])
    | .spct s =>
      match askLogs sv pc (i + 1) ls with
      | (.ok ss, ev) => (.ok (s :: ss), .asked l.2.url pc :: ev)
      | (.err, ev) => (.err, .asked l.2.url pc :: ev)
      | (.panic, ev) => (.panic, .asked l.2.url pc :: ev)

/-- pca.go:253-261 `sendFinalPolCertToAllLogServers` -/
def sendFinal (sv : Servers) (pc : Cert) : Nat → List (Bytes × Log) → Bool × List Event
  | _, [] => (true, [])
  | i, l :: ls =>
    if sv.send i l.2.url pc then
      let r := sendFinal sv pc (i + 1) ls
      (r.1, .final l.2.url pc :: r.2)
    else (false, [.final l.2.url pc])

/-- pca.go:245-249 `signFinalPolicyCertificate` -/
def signFinal (E : Env Key Pub) (p : Pca Key) (pc : Cert) : Option Cert := signAsIssuer E p.root p.key { pc with issuerSignature := none, issuerHash := none }

/-- pca.go:263-266 `storeInDb` -/
def storeInDb (E : Env Key Pub) (p : Pca Key) (pc : Cert) : Pca Key :=
  { p with db := fun k => if k = E.H (pc.publicKey.getD []) then some pc else p.db k }

/-- pca.go:148-185, 216-221 `SignAndLogRequest`; `o1` and `o2` are the orders in which the map of log servers is iterated. -/
def signAndLog (E : Env Key Pub) (p : Pca Key) (sv : Servers) (o1 o2 : List (Bytes × Log)) (req : Fields) : Outcome Cert × Pca Key × List Event :=
  match canSkip E p req with
  | none => (.err, p, [])
  | some _ =>
    match signRequestAsIssuer E p.root p.key req with
    | none => (.err, p, [])
    | some pc =>
      match askLogs sv pc 0 o1 with
      | (.err, ev) => (.err, p, ev)
      | (.panic, ev) => (.panic, p, ev)
      | (.ok spcts, ev) =>
        match signFinal E p { pc with spcts := spcts } with
        | none => (.err, p, ev)
        | some fin =>
          match sendFinal sv fin 0 o2 with
          | (false, ev') => (.err, p, ev ++ ev')
          | (true, ev') => (.ok fin, storeInDb E p fin, ev ++ ev')

end Fpki.Pca
