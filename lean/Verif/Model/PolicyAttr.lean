import Verif.Model.Domain

/-!
# Model of the policy attributes of `pkg/common/policies.go`

Go strings are byte lists.
-/
namespace Fpki.PolicyAttr

open Fpki.Domain (dot star split)

/-- policies.go:85-108 `PolicyAttributes` -/
structure Attributes where
  allowedCAs : List Bytes
  allowed : List Bytes
  disallowed : List Bytes
  excluded : List Bytes
deriving DecidableEq, Repr

/-- policies.go:133-140 `PolicyAttributeDomainValidityResult` -/
inductive Verdict where
  | allowed | disallowed | excluded | notApplicable
deriving DecidableEq, Repr

/-- A Go set (`map[string]struct{}`) as a list without duplicates: `m[x] = struct{}{}` -/
def setAdd (m : List Bytes) (x : Bytes) : List Bytes := if m.contains x then m else x :: m

/-- The set of the elements of a list, added one after another. -/
def addAll (m : List Bytes) (xs : List Bytes) : List Bytes := xs.foldl setAdd m

/-- policies.go:142-168 `ValidateAttributes`: does it return nil? -/
def validateAttributes (a : Attributes) : Bool :=
  let caMap := addAll [] a.allowedCAs
  if caMap.length < a.allowedCAs.length then false
  else
    let labelMap := addAll (addAll (addAll [] a.allowed) a.disallowed) a.excluded
    let nLabels := a.allowed.length + a.disallowed.length + a.excluded.length
    if labelMap.length < nLabels then false else true

/-- `strings.CutSuffix` -/
def cutSuffix (s t : Bytes) : Bytes × Bool := if t.isSuffixOf s then (s.take (s.length - t.length), true) else (s, false)

/-- policies.go:188-211: the verdict for the label. -/
def labelVerdict (a : Attributes) (l : Bytes) : Verdict :=
  if a.allowed.contains l then .allowed
  else if a.disallowed.contains l then .disallowed
  else if a.excluded.contains l then .excluded
  else if a.allowed.contains [star] then .allowed
  else if a.disallowed.contains [star] then .disallowed
  else if a.excluded.contains [star] then .excluded
  else .allowed

/-- policies.go:170-212 `CheckDomainValidity` -/
def checkDomainValidity (a : Attributes) (policyDomain domain : Bytes) : Verdict :=
  let p := (cutSuffix policyDomain [dot]).1
  let d := (cutSuffix domain [dot]).1
  match cutSuffix d (dot :: p) with
  | (_, false) => .notApplicable
  | (target, true) => labelVerdict a ((split target).getLast?.getD [])

end Fpki.PolicyAttr
