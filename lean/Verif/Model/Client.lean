import Verif.Model.PayloadApi
import Verif.Model.Ids

/-!
# Model of the client of `tests/integration/mapserver/main.go` (`checkResponse`): the payloads behind a proof
-/
namespace Fpki.Client
open Fpki.PayloadApi (apiGetPayloads hexEncode readBody)

/-- main.go:172-197: one request for the payloads of all IDs (`order`: the order in which the map of IDs is iterated), nothing without IDs; `none` is an error or an answer of the wrong
length. -/
def fetchAll (query : List Bytes → List (Bytes × Bytes)) (order : List Bytes) : Option (List (Option Bytes)) :=
  if order.length = 0 then some []
  else match apiGetPayloads query (order.flatMap hexEncode) with
    | .ok body =>
      match readBody body with
      | some payloads => if order.length = payloads.length then some payloads else none
      | none => none
    | .badRequest => none

/-- main.go:198-204: the hashes of the payloads (of a nil payload: the hash of nothing) are the IDs, as sets. -/
def Hashes (H : Bytes → Bytes) (order : List Bytes) (payloads : List (Option Bytes)) : Prop := ∀ i, i ∈ order ↔ ∃ p ∈ payloads, H (p.getD []) = i

end Fpki.Client
