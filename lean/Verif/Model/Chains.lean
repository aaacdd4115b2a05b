import Verif.Model.Batch

/-!
# Model of unfolding chains into certificates: `pkg/util/certificate.go` and `cmd/ingest/toChainWorker.go`

X.509 parsing and base64 decoding are not modelled: lines contain certificates that decode and parse. IDs are `H raw` for an arbitrary `H`
(SHA-256 in the code). The chain column always has at least one part (splitSemicolonField), so the chain of a parsed line is not empty; the
model needs no such condition.
-/
namespace Fpki.Chains
open Fpki.Batch (lruContains lruAdd)

/-- The parts of `ctx509.Certificate` the code uses; `names` is the result of `ExtractCertDomains` (pkg/util/domain.go:8-24), whose order
is arbitrary in the code. -/
structure X509 where
  raw : Bytes
  names : List Bytes
  notAfter : Nat
deriving DecidableEq, Repr

/-- The four result slices of certificate.go:73-121. A nil parent is `none`; nil names are `none`. -/
structure Unfolded where
  certs : List X509
  ids : List Bytes
  parents : List (Option Bytes)
  names : List (Option (List Bytes))

/-- certificate.go:97-115: the body of the inner loop for one certificate and its remaining chain; `leaf` says which
`extractNames` is in use. -/
def Unfolded.add (H : Bytes → Bytes) (leaf : Bool) (u : Unfolded) (p : X509 × List X509) : Unfolded :=
  { certs := u.certs ++ [p.1]
    ids := u.ids ++ [H p.1.raw]
    parents := u.parents ++ [p.2.head?.map (fun c => H c.raw)]
    names := u.names ++ [if leaf then some p.1.names else none] }

/-- certificate.go:104-111: `pendingCerts` and `pendingChains` -/
def pending (ps : List (X509 × List X509)) : List (X509 × List X509) :=
  ps.filterMap (fun p => match p.2 with
    | [] => none
    | c :: cs => some (c, cs))

theorem pending_measure : ∀ ps : List (X509 × List X509),
    ((pending ps).map (fun p => p.2.length + 1)).sum + ps.length = (ps.map (fun p => p.2.length + 1)).sum
  | [] => rfl
  | (c, []) :: ps => by
    have := pending_measure ps
    simp only [pending, List.filterMap_cons, List.map_cons, List.sum_cons, List.length_cons, List.length_nil] at this ⊢
    omega
  | (c, d :: ds) :: ps => by
    have := pending_measure ps
    simp only [pending, List.filterMap_cons, List.map_cons, List.sum_cons, List.length_cons] at this ⊢
    omega

/-- certificate.go:94-119: the outer loop -/
def unfoldLoop (H : Bytes → Bytes) (leaf : Bool) (u : Unfolded) (ps : List (X509 × List X509)) : Unfolded :=
  if ps = [] then u else unfoldLoop H false (ps.foldl (Unfolded.add H leaf) u) (pending ps)
termination_by (ps.map (fun p => p.2.length + 1)).sum
decreasing_by
  rename_i h
  have := pending_measure ps
  have := List.length_pos_iff.2 h
  omega

/-- certificate.go:73-121 `UnfoldCerts`. Simplification: with fewer chains than certificates the code panics, the model
ignores the rest. -/
def unfoldCerts (H : Bytes → Bytes) (leaves : List X509) (chains : List (List X509)) : Unfolded :=
  unfoldLoop H true ⟨[], [], [], []⟩ (leaves.zip chains)

/-- certificate.go:23-29 `ExtractExpirations` -/
def extractExpirations (certs : List X509) : List Nat := certs.map X509.notAfter

/-! ## Ingest -/

/-- cmd/ingest `line`, decoded. `exp` is the expiration field (toChainWorker.go:154-167). -/
structure Line where
  exp : Nat
  leaf : X509
  chain : List X509

/-- updater/types.go `Certificate`: one row for the certs table. -/
structure Out where
  id : Bytes
  parent : Option Bytes
  names : Option (List Bytes)
  notAfter : Nat
  raw : Bytes
deriving DecidableEq, Repr

/-- toChainWorker.go:120-142: the loop over the chain: the payloads kept (nil if the ID was in the cache) and the
new cache. -/
def chainLoop (H : Bytes → Bytes) (size : Nat) : List Bytes → List X509 → List Bytes × List (Option X509)
  | cache, [] => (cache, [])
  | cache, c :: cs =>
    if lruContains cache (H c.raw) then
      let r := chainLoop H size cache cs
      (r.1, none :: r.2)
    else
      let r := chainLoop H size (lruAdd size cache (H c.raw)) cs
      (r.1, some c :: r.2)

/-- toChainWorker.go:67-150 `parseLine`: `none` if the line is skipped, otherwise the payloads of the chain; and the new cache. -/
def parseLine (H : Bytes → Bytes) (size now : Nat) (cache : List Bytes) (l : Line) : List Bytes × Option (List (Option X509)) :=
  if l.exp < now then (cache, none)
  else if lruContains cache (H l.leaf.raw) then (cache, none)
  else if l.leaf.notAfter < now then (cache, none)
  else
    let r := chainLoop H size cache l.chain
    (r.1, some r.2)

/-- certificate.go:147-167: ancestors, with the ID of each one's parent. -/
def unfoldAncestors : List (Option X509) → List Bytes → List Out
  | some c :: cs, id :: ids => ⟨id, ids.head?, none, c.notAfter, c.raw⟩ :: unfoldAncestors cs ids
  | _, _ => []

/-- certificate.go:128-169 `UnfoldCert` and updater/types.go:52-69 `CertificatesFromChains` -/
def certsFromChain (H : Bytes → Bytes) (leaf : X509) (chain : List (Option X509)) (chainIDs : List Bytes) : List Out :=
  ⟨H leaf.raw, chainIDs.head?, some leaf.names, leaf.notAfter, leaf.raw⟩ :: unfoldAncestors chain chainIDs

/-- One line through the worker and the next stage. -/
def ingestLine (H : Bytes → Bytes) (size now : Nat) (cache : List Bytes) (l : Line) : List Bytes × List Out :=
  let r := parseLine H size now cache l
  (r.1, match r.2 with
    | none => []
    | some chain => certsFromChain H l.leaf chain (l.chain.map (fun c => H c.raw)))

/-- All lines of one worker. -/
def ingestAll (H : Bytes → Bytes) (size now : Nat) : List Bytes → List Line → List Out
  | _, [] => []
  | cache, l :: ls =>
    let r := ingestLine H size now cache l
    r.2 ++ ingestAll H size now r.1 ls

end Fpki.Chains
