import Verif.Model.Bytes

/-!
# Model of `pkg/common/ids.go`

An ID is a byte string of length 32 (`common.SHA256Output`); the length is a hypothesis of the
theorems. `SHA256Hash` is an arbitrary function.
-/
namespace Fpki.Ids

/-- `common.SHA256Size`, pkg/common/hasher.go. -/
def idSize : Nat := 32

/-- `sort.Slice(ids, less)`: Go only guarantees a permutation in which no element is less than an
earlier one (the sort is not stable); the outcome is otherwise arbitrary. -/
structure GoSorted (less : α → α → Bool) (input out : List α) : Prop where
  perm : out.Perm input
  sorted : out.Pairwise (fun a b => less b a = false)

/-- ids.go:11-18 `BytesToIDs`: `len/32` blocks; trailing bytes are dropped. -/
def bytesToIDs (b : Bytes) : List Bytes :=
  if 32 ≤ b.length then b.take 32 :: bytesToIDs (b.drop 32) else []
termination_by b.length

/-- ids.go:20-27 `IDsToBytes`. -/
def idsToBytes (ids : List Bytes) : Bytes := ids.flatten

/-- ids.go:32-40 `SortIDsAndGlue`, as a relation because `sort.Slice` is. -/
def SortIDsAndGlue (ids : List Bytes) (out : Bytes) : Prop :=
  ∃ s, GoSorted bytesLt ids s ∧ out = idsToBytes s

/-- ids.go:43-53 `SortIDsAndHash` (`none` is the nil slice). -/
def SortIDsAndHash (H : Bytes → Bytes) (ids : List Bytes) (out : Option Bytes) : Prop :=
  if ids = [] then out = none else ∃ s, GoSorted bytesLt ids s ∧ out = some (H (idsToBytes s))

end Fpki.Ids
