import Verif.Model.Smt

/-!
# Model of `pkg/mapserver/trie`: compressed proofs (trie_merkle_proof.go:50-71, 177-224)
-/
namespace Fpki.Smt

/-- util.go:30-32 `bitSet`. (The Go code panics past the end; here nothing changes.) -/
def bitSet (b : Bytes) (i : Nat) : Bytes :=
  b.set (i / 8) (b.getD (i / 8) 0 ||| UInt8.ofNat (2 ^ (7 - i % 8)))

/-- Loop of trie_merkle_proof.go:66-71, over the nodes from index `i`. -/
def compressLoop : Nat → List Bytes → Bytes × List Bytes → Bytes × List Bytes
  | _, [], acc => acc
  | i, node :: rest, (bitmap, mp) =>
    if node = defaultLeaf then compressLoop (i + 1) rest (bitmap, mp)
    else compressLoop (i + 1) rest (bitSet bitmap i, mp ++ [node])

/-- A compressed audit path: bitmap, the non-default nodes and the length of the full path. -/
structure CPath where
  bitmap : Bytes
  nodes : List Bytes
  length : Nat
deriving Repr, DecidableEq

/-- trie_merkle_proof.go:61-72, the second part of `merkleProofCompressed`. -/
def compress (path : List Bytes) : CPath :=
  let r := compressLoop 0 path (List.replicate (path.length / 8 + 1) 0, [])
  ⟨r.1, r.2, path.length⟩

/-- trie_merkle_proof.go:50-71 `merkleProofCompressed`: bitmap, nodes and length, and the rest of the
proof unchanged. -/
def merkleProofC (H : Bytes → Bytes) (n : Nat) (t : Node) (key : Key) : CPath × Proof :=
  let p := merkleProof H n n t key
  (compress p.path, p)

/-- trie_merkle_proof.go:183-198 `verifyInclusionC`; `m = length - keyIndex`, `i = keyIndex`, `rap` is
`ap` from its end without the first `apIndex` elements; `none` is the panic of an exhausted `ap`. -/
def verifyPathC (H : Bytes → Bytes) (bitmap : Bytes) (key : Key) (e : Bytes) :
    Nat → Nat → List Bytes → Option Bytes
  | 0, _, _ => some e
  | m + 1, i, rap =>
    if bitIsSet key i then
      if bitIsSet bitmap m then
        match rap with
        | s :: rap => (verifyPathC H bitmap key e m (i + 1) rap).map (fun y => H (s ++ y))
        | [] => none
      else (verifyPathC H bitmap key e m (i + 1) rap).map (fun y => H (defaultLeaf ++ y))
    else
      if bitIsSet bitmap m then
        match rap with
        | s :: rap => (verifyPathC H bitmap key e m (i + 1) rap).map (fun y => H (y ++ s))
        | [] => none
      else (verifyPathC H bitmap key e m (i + 1) rap).map (fun y => H (y ++ defaultLeaf))

/-- trie_merkle_proof.go:177-180 `VerifyInclusionC`; `root = none` is a nil root, equal to no digest. -/
def verifyInclusionC (H : Bytes → Bytes) (n : Nat) (root : Option Bytes) (c : CPath) (key : Key)
    (value : Val) : Option Bool :=
  (verifyPathC H c.bitmap key (H (key ++ value ++ [heightByte n c.length])) c.length 0
    c.nodes.reverse).map (fun d => root == some d)

/-- trie_merkle_proof.go:202-224 `VerifyNonInclusionC`. Unlike `VerifyNonInclusion` it does not look at
a nil root first. -/
def verifyNonInclusionC (H : Bytes → Bytes) (n : Nat) (root : Option Bytes) (c : CPath) (key : Key)
    (value : Val) (proofKey : Bytes) : Option Bool :=
  if proofKey.isEmpty then
    (verifyPathC H c.bitmap key defaultLeaf c.length 0 c.nodes.reverse).map (fun d => root == some d)
  else
    match verifyInclusionC H n root c proofKey value with
    | none => none
    | some false => some false
    | some true => some (sameBits key proofKey c.length)

end Fpki.Smt
