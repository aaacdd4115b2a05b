import Verif.Model.SmtCompress

/-!
# Model of `pkg/mapserver/trie`: serialization of node batches

A batch has 31 slots; a nil slot is `[]`. Slot 0 is `[1]` for a shortcut batch and `[0]` otherwise.
-/
namespace Fpki.Smt

/-- Loop of trie_cache.go:122-127 over the slots from number `i` on. -/
def serLoop : Nat → List Bytes → Bytes → Bytes
  | _, [], ser => ser
  | i, slot :: rest, ser =>
    if slot.length ≠ 0 then serLoop (i + 1) rest (bitSet ser (i - 1) ++ slot)
    else serLoop (i + 1) rest ser

/-- trie_cache.go:116-129 `serializeBatch`. -/
def serializeBatch (batch : List Bytes) : Bytes :=
  let ser : Bytes := List.replicate 4 0
  let ser := if (batch.getD 0 []).getD 0 0 = 1 then bitSet ser 31 else ser
  serLoop 1 (batch.drop 1) ser

/-- `val[a:b]` -/
def slice (val : Bytes) (a b : Nat) : Bytes := (val.take b).drop a

/-- Loop of trie.go:677-682 for `m` more slots, slot number `i`, next node `j`. -/
def parseLoop (val : Bytes) : Nat → Nat → Nat → List Bytes
  | 0, _, _ => []
  | m + 1, i, j =>
    if bitIsSet (val.take 4) (i - 1) then
      slice val (4 + 33 * j) (4 + 33 * (j + 1)) :: parseLoop val m (i + 1) (j + 1)
    else [] :: parseLoop val m (i + 1) j

/-- trie.go:665-683 `parseBatch`. (Slices past the end panic in Go; here they are cut off.) -/
def parseBatch (val : Bytes) : List Bytes :=
  if bitIsSet val 31 then
    [1] :: slice val 4 (4 + 33) :: slice val (4 + 33) (4 + 33 * 2) :: List.replicate 28 []
  else [0] :: parseLoop val 30 1 0

end Fpki.Smt
