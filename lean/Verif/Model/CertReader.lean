import Verif.Model.Bytes

/-!
# Model of `pkg/util/certReader.go`

`encoding/pem` and the x509 parsers are parameters: `decode` finds the first PEM block of a text and returns it with the rest (`none`: there is none, and then the whole text is the rest), `parse` is `ParseTBSCertificate` and, if that fails, `ParseCertificate`. The `io.Reader` reads from a fixed stream, in pieces of arbitrary size, and may fail at any time.
-/
namespace Fpki.CertReader

variable {Cert : Type}

/-- A PEM block: whether its type is "CERTIFICATE", and its contents. -/
structure Block where
  isCert : Bool
  bytes : Bytes
deriving DecidableEq, Repr

/-- The libraries. -/
structure Lib (Cert : Type) where
  decode : Bytes → Option (Block × Bytes)
  parse : Bytes → Option Cert

/-- certReader.go:10-15 `CertReader`, and what has not been read yet of the stream. -/
structure St where
  storage : Bytes
  buff : Bytes
  eof : Bool
  rest : Bytes
deriving DecidableEq, Repr

/-- certReader.go:17-23 `NewCertReader`; the size of the storage (1 MiB) is a parameter. -/
def new (size : Nat) (stream : Bytes) : St := ⟨List.replicate size 0, [], false, stream⟩

/-- How `io.Reader.Read` answers: at most `k` bytes, reporting the end of the stream together with the last bytes (or with no bytes) if `flag`; or an error that is not `io.EOF`. -/
inductive Ans
  | read (k : Nat) (flag : Bool)
  | fail
deriving DecidableEq, Repr

/-- The outcome of the loop that parses: the certificates found and the remaining buffer, or an error and the remaining buffer. -/
inductive Parsed (Cert : Type)
  | ok (certs : List Cert) (buff : Bytes)
  | err (buff : Bytes)

/-- certReader.go:56-78: the inner loop, for at most `w` certificates. The counter bounds the number of blocks (the text gets shorter with each). -/
def parseLoop (L : Lib Cert) : Nat → Bytes → Nat → Parsed Cert
  | 0, buff, _ => .ok [] buff
  | fuel + 1, buff, w =>
    if w = 0 then .ok [] buff
    else
      match L.decode buff with
      | none => .ok [] buff
      | some (b, r) =>
        if !b.isCert then parseLoop L fuel r w
        else
          match L.parse b.bytes with
          | none => .err r
          | some c =>
            match parseLoop L fuel r (w - 1) with
            | .ok cs r' => .ok (c :: cs) r'
            | .err r' => .err r'

/-- The outcome of `Read`: certificates, an error, or it waits for the reader to answer. With the answers not used yet. -/
inductive Result (Cert : Type)
  | done (certs : List Cert) (s : St) (as : List Ans)
  | err (s : St) (as : List Ans)
  | blocked
deriving DecidableEq

/-- certReader.go:30-44: the state after reading, the number of new bytes and whether the end of the stream was reported; `none` for an error. -/
def fill (a : Ans) (s : St) : Option (St × Nat × Bool) :=
  let n := min s.storage.length s.buff.length
  let storage := s.buff.take n ++ s.storage.drop n
  match a with
  | .fail => none
  | .read k flag =>
    let new := s.rest.take (min k (storage.length - n))
    let storage' := storage.take n ++ new ++ storage.drop (n + new.length)
    let rest' := s.rest.drop new.length
    some ({ s with storage := storage', buff := storage'.take (n + new.length), rest := rest' }, new.length, rest'.isEmpty && flag)

/-- certReader.go:30-39: the state after an error of the reader: the buffer is the free part of the storage. -/
def afterFail (s : St) : St :=
  let n := min s.storage.length s.buff.length
  let storage := s.buff.take n ++ s.storage.drop n
  { s with storage := storage, buff := storage.drop n }

/-- certReader.go:26-83 `Read` with a slice of length `w + acc.length`, of which `acc` is filled already. -/
def readLoop (L : Lib Cert) : List Ans → St → Nat → List Cert → Result Cert
  | as, s, 0, acc => .done acc s as
  | [], _, _ + 1, _ => .blocked
  | a :: as, s, w + 1, acc =>
    match fill a s with
    | none => .err (afterFail s) as
    | some (s', newBytes, eof) =>
      if newBytes = 0 ∧ eof = false then readLoop L as { s' with storage := List.replicate (2 * s'.storage.length) 0 } (w + 1) acc
      else
        let s'' := { s' with eof := s'.eof || decide (newBytes = 0) }
        match parseLoop L (s''.buff.length + 1) s''.buff (w + 1) with
        | .err r => .err { s'' with buff := r } as
        | .ok cs r =>
          if s''.eof then .done (acc ++ cs) { s'' with buff := r } as
          else readLoop L as { s'' with buff := r } (w + 1 - cs.length) (acc ++ cs)

/-- certReader.go:26-83 `Read` with a slice of length `w` -/
def read (L : Lib Cert) (as : List Ans) (s : St) (w : Nat) : Result Cert := readLoop L as s w []

/-- The outcome of `ReadAll`. -/
inductive All (Cert : Type)
  | ok (certs : List Cert)
  | err
  | blocked

/-- certReader.go:87-101 `ReadAll`; the counter bounds the number of calls of `Read` (see the theorems). -/
def readAllLoop (L : Lib Cert) : Nat → List Ans → St → List Cert → All Cert
  | 0, _, _, _ => .blocked
  | fuel + 1, as, s, acc =>
    match read L as s 1 with
    | .blocked => .blocked
    | .err _ _ => .err
    | .done cs s' as' => if cs.length = 0 then .ok acc else readAllLoop L fuel as' s' (acc ++ cs)

end Fpki.CertReader
