import Verif.Model.Fetch
import Verif.Model.Domain
import Verif.Model.PolicyCert

/-!
# Model of the bulk operations: `HttpLogFetcher.FetchAllCertificates` and `MapUpdater.UpdatePolicyCerts`
-/
namespace Fpki.Bulk

open Fpki.Fetch (Server End fetch)
open Fpki.Policy (Cert Time)
open Fpki.Domain (Psl isValidDomain)

/-- What a call of `FetchAllCertificates` ends with: the certificates and no error, the certificates and an error (the results are named, so what was read before the
error is returned with it), a panic, or it never returns. -/
inductive All (γ : Type) where
  | ok (certs : List γ)
  | err (certs : List γ)
  | panic
  | hang
deriving DecidableEq

/-- httplogfetcher.go:168-180, the loop of `FetchAllCertificates`, with `NextBatch` (121-139) and `ReturnNextBatch` (144-151) inlined: `cancelled i` says that the
`i`-th `select` of `NextBatch` took the branch of the cancelled context; `rs` are the results the goroutine still sends, `e` is how the goroutine ends. A certificate
and its chain are one value, and the number of excluded ones is left out (a result of the HTTP fetcher never has any). -/
def collect (cancelled : Nat → Bool) (e : End) : Nat → List γ → List (Option (List γ)) → All γ
  | i, certs, [] =>
    if cancelled i then .err certs
    else match e with
      | .done => .ok certs
      | .panic => .panic
      | .loop => .hang
  | i, certs, r :: rs =>
    if cancelled i then .err certs
    else match r with
      | none => .err certs
      | some b => if b = [] then .ok certs else collect cancelled e (i + 1) (certs ++ b) rs

/-- httplogfetcher.go:154-183 `FetchAllCertificates`: the two slices are made with the capacity `end - start + 1`, which must not be negative. -/
def fetchAll [DecidableEq γ] (srv : Server ε) (parse : ε → Option γ) (zero : ε) (sb pb fuel start stop : Nat) (cancelled : Nat → Bool) : All γ :=
  if stop + 1 < start then .panic
  else collect cancelled (fetch srv parse zero sb pb fuel start stop).2 0 [] (fetch srv parse zero sb pb fuel start stop).1

/-- bufio `MaxScanTokenSize`. -/
def maxToken : Nat := 65536

/-- bufio `dropCR`. -/
def dropCR (l : Bytes) : Bytes := if l.getLast? = some 13 then l.dropLast else l

/-- bufio `Scanner` with `ScanLines` over a text: the lines, and whether it stopped with `ErrTooLong` (a line with its end of line does not fit in the buffer, or the
last line fills it). `acc` is what was read of the present line. -/
def scanFrom (acc : Bytes) : Bytes → List Bytes × Bool
  | [] => if acc = [] then ([], false) else if acc.length < maxToken then ([dropCR acc], false) else ([], true)
  | b :: t =>
    if b = 10 then
      if acc.length < maxToken then (dropCR acc :: (scanFrom [] t).1, (scanFrom [] t).2) else ([], true)
    else scanFrom (acc ++ [b]) t

/-- bufio `Scanner`. -/
def scan (text : Bytes) : List Bytes × Bool := scanFrom [] text

/-- time `Time.Add` of `d` nanoseconds. -/
def addTime (t : Time) (d : Int) : Time := { t with ns := t.ns + d, mono := t.mono.map (· + d) }

/-- The readings of the clock and of the random generator for one line: httplogfetcher.go:361, 362, 367, 365. -/
structure Draw where
  before : Time
  after : Time
  stamp : Time
  key : Bytes

/-- httplogfetcher.go:361-380, `NewPolicyCertificate` (policies.go:264-305) with these arguments; `RSA` and `SHA256` are 0 (crypto.go:6-16). -/
def madeUp (name : Bytes) (d : Draw) : Cert :=
  { raw := none, version := 0, serial := 0, domain := name, notBefore := d.before, notAfter := addTime d.after 1000, canIssue := false, canOwn := false,
    publicKey := some d.key, publicKeyAlgorithm := 0, signatureAlgorithm := 0, timeStamp := d.stamp, attributes := ⟨[], [], [], []⟩, ownerSignature := none,
    ownerHash := none, issuerSignature := none, issuerHash := none, spcts := [] }

/-- httplogfetcher.go:354-381, the loop over the lines; `i` counts the certificates made. -/
def makeAll (psl : Psl) (draw : Nat → Draw) : Nat → List Bytes → List Cert
  | _, [] => []
  | i, l :: ls => if isValidDomain psl l then madeUp l (draw i) :: makeAll psl draw (i + 1) ls else makeAll psl draw i ls

/-- What the file system gives: no such file, or a text and whether reading it ended with an error. -/
abbrev FileRead := Option (Bytes × Bool)

/-- httplogfetcher.go:338-388 `GetPCAndRPCs`; the "URL" is the name of a file; the indices and the number of workers are not used. -/
def getPCAndRPCs (psl : Psl) (draw : Nat → Draw) (file : FileRead) : Option (List Cert) :=
  match file with
  | none => none
  | some (text, broken) => if (scan text).2 || broken then none else some (makeAll psl draw 0 (scan text).1)

/-- updater.go:323-330 `updatePolicyCerts`: nothing yet. The state of the database is any type. -/
def updatePolicyCertsInner (db : δ) (_ : List Cert) : Bool × δ := (true, db)

/-- updater.go:227-234 `UpdatePolicyCerts`: whether it returns nil, and the database afterwards. -/
def updatePolicyCerts (psl : Psl) (draw : Nat → Draw) (file : FileRead) (db : δ) : Bool × δ :=
  match getPCAndRPCs psl draw file with
  | none => (false, db)
  | some certs => updatePolicyCertsInner db certs

end Fpki.Bulk
