import Verif.Model.CertReader
import Verif.Model.CsvLoad
import Verif.Model.Rows
import Verif.Model.Domain

/-!
# Model of the PEM texts: `pkg/util/certWriter.go`, `certificate.go:41-60`, `io.go:66-132`, `pem.go`

`encoding/pem` is not in the repository; `encode` and `decode` model `pem.Encode` and `pem.Decode` of Go 1.25.0 (the version of go.mod), `getLine`, `cut` the functions they use.
The x509 functions are parameters.
-/
namespace Fpki.Pem
open Domain (asc)

/-! ## encoding/pem -/

/-- `pemStart[1:]` -/
def beginMark : Bytes := [45, 45, 45, 45, 45, 66, 69, 71, 73, 78, 32]
/-- `pemEnd[1:]` -/
def endMark : Bytes := [45, 45, 45, 45, 45, 69, 78, 68, 32]
/-- `pemEndOfLine` -/
def dashes : Bytes := [45, 45, 45, 45, 45]

/-- `lineBreaker`: lines of 64 characters. The counter bounds the number of lines. -/
def breakLines : Nat → Bytes → Bytes
  | 0, _ => []
  | fuel + 1, s => if s = [] then [] else s.take 64 ++ [10] ++ breakLines fuel (s.drop 64)

/-- The lines between the first and the last one. -/
def body (data : Bytes) : Bytes := breakLines (CsvLoad.base64 data).length (CsvLoad.base64 data)

/-- `pem.Encode`, for a block without headers. -/
def encode (type data : Bytes) : Bytes :=
  beginMark ++ type ++ dashes ++ [10] ++ body data ++ endMark ++ type ++ dashes ++ [10]

/-- `bytes.Cut` -/
def cut (pat : Bytes) : Bytes → Option (Bytes × Bytes)
  | [] => if pat = [] then some ([], []) else none
  | c :: s => if pat.isPrefixOf (c :: s) then some ([], (c :: s).drop pat.length) else (cut pat s).map fun x => (c :: x.1, x.2)

/-- `bytes.TrimRight(s, " \t")` -/
def trimRight (s : Bytes) : Bytes := (s.reverse.dropWhile fun c => c == 32 || c == 9).reverse

/-- A line without the `\r` at its end. -/
def dropCR (s : Bytes) : Bytes := if s.getLast? = some 13 then s.dropLast else s

/-- `getLine`: the line and what follows it. -/
def getLine (s : Bytes) : Bytes × Bytes :=
  match cut [10] s with
  | none => (trimRight s, [])
  | some (l, r) => (trimRight (dropCR l), r)

/-- The loop of `Decode` over the headers: whether there are any, and what follows them; `none` at the end of the text. The counter bounds the number of lines. -/
def skipHeaders : Nat → Bool → Bytes → Option (Bool × Bytes)
  | 0, _, _ => none
  | fuel + 1, found, rest =>
    if rest = [] then none
    else if (getLine rest).1.contains 58 then skipHeaders fuel true (getLine rest).2
    else some (found, rest)

/-- `Decode` from after the headers: the contents and what follows the block; `none` for `continue`. -/
def finish (found : Bool) (type rest : Bytes) : Option (Bytes × Bytes) :=
  match (if !found && endMark.isPrefixOf rest then some ([], rest.drop endMark.length) else cut (10 :: endMark) rest) with
  | none => none
  | some (data, trailer) =>
    if trailer.length < type.length + dashes.length then none
    else if !(type.isPrefixOf (trailer.take (type.length + dashes.length))) || !(dashes.isSuffixOf (trailer.take (type.length + dashes.length))) then none
    else if (getLine (trailer.drop (type.length + dashes.length))).1 ≠ [] then none
    else match Rows.decodeField (data.filter fun c => !(c == 32 || c == 9)) with
      | none => none
      | some bytes => some (bytes, (getLine trailer).2)

/-- The text after the next BEGIN mark. -/
def findBegin (rest : Bytes) : Option Bytes :=
  if beginMark.isPrefixOf rest then some (rest.drop beginMark.length) else (cut (10 :: beginMark) rest).map Prod.snd

/-- `pem.Decode`: the type, the contents, and what follows; the headers are left out. `none`: no block. The counter bounds the number of `continue`s. -/
def decodeLoop : Nat → Bytes → Option (Bytes × Bytes × Bytes)
  | 0, _ => none
  | fuel + 1, rest =>
    match findBegin rest with
    | none => none
    | some after =>
      if !(dashes.isSuffixOf (getLine after).1) then decodeLoop fuel (getLine after).2
      else
        let type := (getLine after).1.take ((getLine after).1.length - dashes.length)
        match skipHeaders ((getLine after).2.length + 1) false (getLine after).2 with
        | none => none
        | some (found, rest') =>
          match finish found type rest' with
          | some (bytes, r) => some (type, bytes, r)
          | none => decodeLoop fuel rest'

/-- `pem.Decode` -/
def decode (s : Bytes) : Option (Bytes × Bytes × Bytes) := decodeLoop (s.length + 1) s

/-! ## Certificates -/

def certType : Bytes := [67, 69, 82, 84, 73, 70, 73, 67, 65, 84, 69]

/-- The libraries as `CertReader` sees them (certReader.go:59-76): `parse` is `ParseTBSCertificate` and, if that fails, `ParseCertificate`. -/
def lib {Cert : Type} (parse : Bytes → Option Cert) : CertReader.Lib Cert where
  decode s := (decode s).map fun x => (⟨decide (x.1 = certType), x.2.1⟩, x.2.2)
  parse := parse

/-- certWriter.go:21-33 `Write` to a writer that does not fail, and certificate.go:41-52 `SerializeCertificates`: `raws` are the `Raw` fields of the certificates. -/
def serialize (raws : List Bytes) : Bytes := raws.flatMap (encode certType)

/-- certReader.go:21: 1 MiB -/
@[irreducible] def storageSize : Nat := 1024 * 1024

/-- certificate.go:56-60 `DeserializeCertificates`; `as`: how `bytes.Reader` answers. -/
def deserialize {Cert : Type} (parse : Bytes → Option Cert) (as : List CertReader.Ans) (payload : Bytes) : CertReader.All Cert :=
  CertReader.readAllLoop (lib parse) (payload.length + 1) as (CertReader.new storageSize payload) []

/-- The outcome of `CertificateFromPEMBytes`. -/
inductive One (Cert : Type)
  | err
  /-- a pointer to this certificate and no error; `none`: the certificate that `make` has made, with all fields zero -/
  | pointer (c : Option Cert)
  | blocked
deriving DecidableEq

/-- io.go:89-94: what `Read` with one place gives. -/
def oneOf {Cert : Type} : CertReader.Result Cert → One Cert
  | .blocked => .blocked
  | .err _ _ => .err
  | .done cs _ _ => .pointer cs.head?

/-- io.go:85-95 `CertificateFromPEMBytes`, and 70-83 `CertificateFromPEMFile` for a file that can be opened -/
def certificateFromPEM {Cert : Type} (parse : Bytes → Option Cert) (as : List CertReader.Ans) (pem : Bytes) : One Cert :=
  oneOf (CertReader.read (lib parse) as (CertReader.new storageSize pem) 1)

/-! ## Keys -/

def keyType : Bytes := [82, 83, 65, 32, 80, 82, 73, 86, 65, 84, 69, 32, 75, 69, 89]

/-- The outcome of a function that may panic. -/
inductive KeyResult (Key : Type)
  | ok (k : Key)
  | err
  | panic
deriving DecidableEq

/-- io.go:107-122 `RSAKeyFromPEM`, `parse` is `ParsePKCS1PrivateKey`. `block.Type` panics if there is no block (line 110). -/
def keyFromPEM {Key : Type} (parse : Bytes → Option Key) (s : Bytes) : KeyResult Key :=
  match decode s with
  | none => .panic
  | some (t, b, _) => if t ≠ keyType then .err else match parse b with | none => .err | some k => .ok k

/-- io.go:124-132 `RSAKeyToPEM`, `marshal` is `MarshalPKCS1PrivateKey`. -/
def keyToPEM {Key : Type} (marshal : Key → Bytes) (k : Key) : Bytes := encode keyType (marshal k)

/-- pem.go:11-17, 27-29 `RSAPublicToDERBase64`, `marshal` is `MarshalPKIXPublicKey` -/
def publicToText {Pub : Type} (marshal : Pub → Option Bytes) (k : Pub) : Option Bytes := (marshal k).map CsvLoad.base64

/-- pem.go:19-25, 31-41 `DERBase64ToRSAPublic`; `parse` is `ParsePKIXPublicKey` and the check that it is an RSA key -/
def textToPublic {Pub : Type} (parse : Bytes → Option Pub) (s : Bytes) : Option Pub := (Rows.decodeField s).bind parse

end Fpki.Pem
