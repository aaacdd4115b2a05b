import Verif.Model.SmtPast

/-!
# Model of `pkg/mapserver/responder`: proofs while the DB changes

The responder has a trie of its own (responder.go:40-63) and reads the batches from the table `tree`, one `SELECT` per batch, while the updater changes this table. Nothing locks the table between two `SELECT`s of the same proof.
-/
namespace Fpki.SmtStore

open Fpki.Smt (KVs Key)

/-- What the table `tree` answers to the `SELECT` at each height of a proof (trie.go:566, pkg/db/mysql/smt.go:32-43 `RetrieveTreeNode`). Each height is loaded at most once per proof. -/
abbrev Views := Nat → Bytes → Option Bytes

/-- The trie of the responder: `NewTrie` (trie.go:68-85) sets `CacheHeightLimit` to `TrieHeight + 1` (trie.go:82), and the responder does not change it (responder.go:52-58). -/
def readerCfg (c : Cfg) : Cfg := { c with lim := c.n + 1, atomic := false }

/-- trie_merkle_proof.go:80-128 `merkleProof` with an empty cache, where the DB may be different at each load; `none` is an error. -/
def viewProof (c : Cfg) (views : Views) : Nat → Bytes → Key → Batch → Nat → Option Smt.Proof
  | height, root, key, batch, iBatch =>
    if root.length = 0 then some ⟨[], false, none, none⟩
    else
      match loadChildren c root height iBatch batch ⟨fun _ => none, fun _ => none, [], views height⟩ with
      | none => none
      | some ld =>
        if ld.isShortcut || height == 0 then some (leafProof ld.l ld.r key)
        else
          match height with
          | 0 => none
          | h + 1 =>
            if bitIsSet key (c.n - (h + 1)) then (viewProof c views h ld.r key ld.batch (2 * ld.i + 2)).map (fun p => { p with path := p.path ++ [child ld.l] })
            else (viewProof c views h ld.l key ld.batch (2 * ld.i + 1)).map (fun p => { p with path := p.path ++ [child ld.r] })

/-- responder.go:78 `MerkleProof` of the responder whose trie has the root `root` (responder.go:45-52). -/
def readProof (c : Cfg) (views : Views) (root : Bytes) (key : Key) : Option Smt.Proof := viewProof (readerCfg c) views c.n root key [] 0

/-- The table while the updated nodes are written (trie_cache.go:59-90, pkg/db/mysql/smt.go:63-82): some rows are new. -/
def Writing (s : St) (db : Bytes → Option Bytes) : Prop := ∀ d, db d = s.db d ∨ ∃ b, s.upd d = some b ∧ db d = some (Smt.serializeBatch b)

/-- The table while the removed nodes are deleted (trie_cache.go:90-96, pkg/db/mysql/smt.go:45-60): some rows are gone. -/
def Deleting (s : St) (db : Bytes → Option Bytes) : Prop := ∀ d, db d = written s d ∨ (d ∈ s.removed ∧ db d = none)

end Fpki.SmtStore
