import Verif.Model.SmtStore

/-!
# Model of `pkg/mapserver/trie`: `AtomicUpdate` and proofs for past roots
-/
namespace Fpki.SmtStore

open Fpki.Smt (KVs Key)

/-- trie.go:129-148 `AtomicUpdate` for equally long `keys` and `values`; `none` is an error. Unlike `Update` it does not treat an empty list of keys separately.
`updatePastTries` (trie.go:645-652) is left out: it appends the root to `pastTries`, which nothing reads. -/
def Trie.atomicUpdate (c : Cfg) (t : Trie) (kvs : KVs) : Option Trie :=
  match SmtStore.update { c with atomic := true } c.n t.root kvs [] 0 t.st with
  | none => none
  | some q => some ⟨if q.node.length ≠ 0 then q.node.take 32 else [], q.st⟩

/-- trie.go:99-124 `Update`, which sets `atomicUpdate` to false (109). -/
def Trie.plainUpdate (c : Cfg) (t : Trie) (kvs : KVs) : Option Trie := t.update { c with atomic := false } kvs

/-- trie_merkle_proof.go:31-38 `MerkleProofR`; `none` is an error. -/
def Trie.merkleProofR (c : Cfg) (t : Trie) (key : Key) (root : Bytes) : Option (Smt.Proof × St) := SmtStore.merkleProof c c.n root key [] 0 t.st

end Fpki.SmtStore
