import Verif.Model.Bytes
import Verif.Model.LogVerifier
/-!
# The Merkle tree of the policy log, and how its proofs are verified

`pkg/logverifier/verifier.go` calls `VerifyInclusion` and `VerifyConsistency` of github.com/transparency-dev/merkle v0.0.2 (go.mod:14). The library is not in /repo; the functions are
modelled after its `proof/verify.go` and `rfc6962/rfc6962.go`. SHA-256 is a parameter `H`. Sizes and indices are `uint64` in the code; here they are natural numbers, which are below `2^64` for
every root that can be received (the code never computes beyond its arguments).
-/
namespace Fpki.MerkleLog

open Fpki.LogVerifier (Outcome Res)

/-- verifier.go:30-32 `HashLeaf`, logclient.go:244; `rfc6962.DefaultHasher.HashLeaf` -/
def hashLeaf (H : Bytes → Bytes) (d : Bytes) : Bytes := H (0x00 :: d)

/-- `rfc6962.DefaultHasher.HashChildren`, used in the calls of verifier.go:69 and verifier.go:91 -/
def hashChildren (H : Bytes → Bytes) (l r : Bytes) : Bytes := H (0x01 :: (l ++ r))

/-- `bits.Len64`, called for verifier.go:69 and verifier.go:91 -/
def bitLen (n : Nat) : Nat := if h : n = 0 then 0 else bitLen (n / 2) + 1
termination_by n
decreasing_by omega

/-- `bits.OnesCount64`, called for verifier.go:69 and verifier.go:91 -/
def onesCount (n : Nat) : Nat := if h : n = 0 then 0 else onesCount (n / 2) + n % 2
termination_by n
decreasing_by omega

/-- `bits.TrailingZeros64`, called for verifier.go:69 -/
def trailingZeros (n : Nat) : Nat := if h : n = 0 then 64 else if n % 2 = 1 then 0 else trailingZeros (n / 2) + 1
termination_by n
decreasing_by omega

/-- `innerProofSize`, called for verifier.go:69 and verifier.go:91 -/
def innerProofSize (index size : Nat) : Nat := bitLen (index ^^^ (size - 1))

/-- `decompInclProof`, called for verifier.go:69 and verifier.go:91 -/
def decompInclProof (index size : Nat) : Nat × Nat := (innerProofSize index size, onesCount (index >>> innerProofSize index size))

/-- `chainInner` (verifier.go:69, verifier.go:91); the `i`th bit of the index is the lowest one after `i` shifts. -/
def chainInner (H : Bytes → Bytes) (seed : Bytes) : List Bytes → Nat → Bytes
  | [], _ => seed
  | h :: proof, index => chainInner H (if index % 2 = 0 then hashChildren H seed h else hashChildren H h seed) proof (index / 2)

/-- `chainInnerRight` (verifier.go:69) -/
def chainInnerRight (H : Bytes → Bytes) (seed : Bytes) : List Bytes → Nat → Bytes
  | [], _ => seed
  | h :: proof, index => chainInnerRight H (if index % 2 = 1 then hashChildren H h seed else seed) proof (index / 2)

/-- `chainBorderRight` (verifier.go:69, verifier.go:91) -/
def chainBorderRight (H : Bytes → Bytes) (seed : Bytes) : List Bytes → Bytes
  | [] => seed
  | h :: proof => chainBorderRight H (hashChildren H h seed) proof

/-- `RootFromInclusionProof` (verifier.go:91); `none` is an error. -/
def rootFromInclusionProof (H : Bytes → Bytes) (index size : Nat) (leaf : Bytes) (proof : List Bytes) : Option Bytes :=
  if index ≥ size then none
  else if leaf.length ≠ 32 then none
  else
    let (inner, border) := decompInclProof index size
    if proof.length ≠ inner + border then none
    else some (chainBorderRight H (chainInner H leaf (proof.take inner) index) (proof.drop inner))

/-- `VerifyInclusion` (verifier.go:91), its three outcomes for `VerifyInclusionByHash`. -/
def verifyInclusion (H : Bytes → Bytes) (index size : Nat) (leaf : Bytes) (proof : List Bytes) (root : Bytes) : Outcome :=
  match rootFromInclusionProof H index size leaf proof with
  | none => .malformed
  | some got => if got = root then .ok else .mismatch

/-- `VerifyConsistency` (verifier.go:69): is there no error? -/
def verifyConsistency (H : Bytes → Bytes) (size1 size2 : Nat) (proof : List Bytes) (root1 root2 : Bytes) : Bool :=
  if size2 < size1 then false
  else if size1 = size2 then proof.isEmpty && root1 == root2
  else if size1 = 0 then proof.isEmpty
  else
    match proof with
    | [] => false
    | first :: _ =>
      let (inner', border) := decompInclProof (size1 - 1) size2
      let shift := trailingZeros size1
      let inner := inner' - shift
      let (seed, start) := if size1 = 1 <<< shift then (root1, 0) else (first, 1)
      if proof.length ≠ start + inner + border then false
      else
        let rest := proof.drop start
        let mask := (size1 - 1) >>> shift
        chainBorderRight H (chainInnerRight H seed (rest.take inner) mask) (rest.drop inner) == root1 &&
          chainBorderRight H (chainInner H seed (rest.take inner) mask) (rest.drop inner) == root2

/-! ## `pkg/logverifier` with these functions -/

/-- `types.LogRootV1` (verifier.go:36, 61, 83): the fields that are used. -/
structure Root where
  size : Nat
  hash : Bytes
deriving DecidableEq

/-- `trillian.Proof` (verifier.go:84): the leaf index is an `int64`. -/
structure Proof where
  leafIndex : Int
  hashes : List Bytes

/-- verifier.go:91-92: the outcome for one proof; `uint64(proof.LeafIndex)` is the index modulo 2^64. -/
def inclOf (H : Bytes → Bytes) (r : Root) (leaf : Bytes) (p : Proof) : Outcome := verifyInclusion H (p.leafIndex % 2 ^ 64).toNat r.size leaf p.hashes r.hash

/-- verifier.go:69-70 -/
def consOf (H : Bytes → Bytes) (t n : Root) (c : List Bytes) : Bool := verifyConsistency H t.size n.size c t.hash n.hash

/-- verifier.go:83-111 `VerifyInclusionByHash` -/
def verifyInclusionByHash (H : Bytes → Bytes) (r : Root) (leaf : Bytes) (proofs : List (Option Proof)) : Res := LogVerifier.verifyInclusionByHash (inclOf H) r leaf proofs

/-- verifier.go:61-79 `VerifyRoot` -/
def verifyRoot (H : Bytes → Bytes) (trusted newRoot : Option Root) (c : List Bytes) : Option Root := LogVerifier.verifyRoot Root.size (consOf H) trusted newRoot c

/-- verifier.go:36-57 `VerifyInclusionWithPrevLogRoot` -/
def verifyInclusionWithPrevLogRoot (H : Bytes → Bytes) (trusted newRoot : Option Root) (c : List Bytes) (leaf : Bytes) (proofs : List (Option Proof)) : Res :=
  LogVerifier.verifyInclusionWithPrevLogRoot (inclOf H) Root.size (consOf H) trusted newRoot c leaf proofs

/-! ## Specification: RFC 6962, section 2.1 (not part of /repo) -/

/-- The largest power of two below `n`, for `n > 1`. -/
def split (n : Nat) : Nat := 2 ^ Nat.log2 (n - 1)

theorem split_lt {n : Nat} (h : 2 ≤ n) : 0 < split n ∧ split n < n := by
  unfold split
  have := Nat.log2_self_le (n := n - 1) (by omega)
  exact ⟨Nat.two_pow_pos _, by omega⟩

/-- The Merkle tree hash of the list of leaf hashes. -/
def mth (H : Bytes → Bytes) : List Bytes → Bytes
  | [] => H []
  | [x] => x
  | x :: y :: l =>
    hashChildren H (mth H ((x :: y :: l).take (split (l.length + 2)))) (mth H ((x :: y :: l).drop (split (l.length + 2))))
termination_by l => l.length
decreasing_by
  all_goals
    have := split_lt (n := l.length + 2) (by omega)
    simp only [List.length_take, List.length_drop, List.length_cons]
    omega

/-- The strings that are hashed for it. -/
def inputs (H : Bytes → Bytes) : List Bytes → List Bytes
  | [] => [[]]
  | [_] => []
  | x :: y :: l =>
    (0x01 :: (mth H ((x :: y :: l).take (split (l.length + 2))) ++ mth H ((x :: y :: l).drop (split (l.length + 2))))) ::
      (inputs H ((x :: y :: l).take (split (l.length + 2))) ++ inputs H ((x :: y :: l).drop (split (l.length + 2))))
termination_by l => l.length
decreasing_by
  all_goals
    have := split_lt (n := l.length + 2) (by omega)
    simp only [List.length_take, List.length_drop, List.length_cons]
    omega

/-- The audit path for the leaf at index `m`. -/
def auditPath (H : Bytes → Bytes) (m : Nat) : List Bytes → List Bytes
  | [] => []
  | [_] => []
  | x :: y :: l =>
    let k := split (l.length + 2)
    if m < k then auditPath H m ((x :: y :: l).take k) ++ [mth H ((x :: y :: l).drop k)]
    else auditPath H (m - k) ((x :: y :: l).drop k) ++ [mth H ((x :: y :: l).take k)]
termination_by l => l.length
decreasing_by
  all_goals
    have := split_lt (n := l.length + 2) (by omega)
    simp only [List.length_take, List.length_drop, List.length_cons]
    omega

/-- The consistency proof between the first `m` leaves and all of them (`SUBPROOF`; `PROOF` with `b = true`), for `0 < m ≤ n`. -/
def subProof (H : Bytes → Bytes) (m : Nat) (b : Bool) : List Bytes → List Bytes
  | [] => []
  | [x] => if b then [] else [x]
  | x :: y :: l =>
    let k := split (l.length + 2)
    if m = l.length + 2 then (if b then [] else [mth H (x :: y :: l)])
    else if m ≤ k then subProof H m b ((x :: y :: l).take k) ++ [mth H ((x :: y :: l).drop k)]
    else subProof H (m - k) false ((x :: y :: l).drop k) ++ [mth H ((x :: y :: l).take k)]
termination_by l => l.length
decreasing_by
  all_goals
    have := split_lt (n := l.length + 2) (by omega)
    simp only [List.length_take, List.length_drop, List.length_cons]
    omega

/-- A log with these entries has this root. -/
def RootOf (H : Bytes → Bytes) (entries : List Bytes) (r : Root) : Prop := r.size = entries.length ∧ r.hash = mth H (entries.map (hashLeaf H))

/-- All strings that are hashed for the root of a log. -/
def logInputs (H : Bytes → Bytes) (entries : List Bytes) : List Bytes := entries.map (0x00 :: ·) ++ inputs H (entries.map (hashLeaf H))

/-- Two different strings among these with the same hash. -/
def Collision (H : Bytes → Bytes) (xs : List Bytes) : Prop := ∃ x ∈ xs, ∃ y ∈ xs, x ≠ y ∧ H x = H y

/-! The strings that are hashed during the verification. -/

/-- By `chainInner`. -/
def innerInputs (H : Bytes → Bytes) (seed : Bytes) : List Bytes → Nat → List Bytes
  | [], _ => []
  | h :: proof, index =>
    if index % 2 = 0 then (0x01 :: (seed ++ h)) :: innerInputs H (hashChildren H seed h) proof (index / 2)
    else (0x01 :: (h ++ seed)) :: innerInputs H (hashChildren H h seed) proof (index / 2)

/-- By `chainInnerRight`. -/
def rightInputs (H : Bytes → Bytes) (seed : Bytes) : List Bytes → Nat → List Bytes
  | [], _ => []
  | h :: proof, index =>
    if index % 2 = 1 then (0x01 :: (h ++ seed)) :: rightInputs H (hashChildren H h seed) proof (index / 2) else rightInputs H seed proof (index / 2)

/-- By `chainBorderRight`. -/
def borderInputs (H : Bytes → Bytes) (seed : Bytes) : List Bytes → List Bytes
  | [] => []
  | h :: proof => (0x01 :: (h ++ seed)) :: borderInputs H (hashChildren H h seed) proof

/-- By `VerifyInclusion`. -/
def inclusionInputs (H : Bytes → Bytes) (index size : Nat) (leaf : Bytes) (proof : List Bytes) : List Bytes :=
  let inner := innerProofSize index size
  innerInputs H leaf (proof.take inner) index ++ borderInputs H (chainInner H leaf (proof.take inner) index) (proof.drop inner)

/-- By `VerifyConsistency`. -/
def consistencyInputs (H : Bytes → Bytes) (size1 size2 : Nat) (proof : List Bytes) (root1 : Bytes) : List Bytes :=
  let shift := trailingZeros size1
  let inner := innerProofSize (size1 - 1) size2 - shift
  let seed := if size1 = 1 <<< shift then root1 else proof.headD []
  let rest := if size1 = 1 <<< shift then proof else proof.tail
  let mask := (size1 - 1) >>> shift
  rightInputs H seed (rest.take inner) mask ++ borderInputs H (chainInnerRight H seed (rest.take inner) mask) (rest.drop inner) ++
    (innerInputs H seed (rest.take inner) mask ++ borderInputs H (chainInner H seed (rest.take inner) mask) (rest.drop inner))

end Fpki.MerkleLog
