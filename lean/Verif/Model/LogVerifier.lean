/-!
# Model of `pkg/logverifier/verifier.go`

The functions of github.com/transparency-dev/merkle are parameters: `incl root leaf p` is the outcome of `VerifyInclusion` for one proof, `cons` of `VerifyConsistency`.
-/
namespace Fpki.LogVerifier

/-- The outcome of `logProof.VerifyInclusion`: no error, a `RootMismatchError`, or another error (wrong size of the proof, index beyond the tree). -/
inductive Outcome where
  | ok | mismatch | malformed
deriving DecidableEq, Repr

/-- The result of the functions below: no error, an error, or a panic (nil proof). -/
inductive Res where
  | accepted | refused | panicked
deriving DecidableEq, Repr

variable {ρ κ π σ : Type}

/-- verifier.go:83-111 `VerifyInclusionByHash`; a proof is `none` if its pointer is nil. -/
def verifyInclusionByHash (incl : ρ → κ → π → Outcome) (root : ρ) (leaf : κ) : List (Option π) → Res
  | [] => .refused
  | none :: _ => .panicked
  | some p :: ps =>
    match incl root leaf p with
    | .ok => .accepted
    | .malformed => .refused
    | .mismatch => verifyInclusionByHash incl root leaf ps

/-- verifier.go:61-79 `VerifyRoot`; `size` is `TreeSize`, `none` a nil pointer. The root returned on success is `newRoot`. -/
def verifyRoot (size : ρ → Nat) (cons : ρ → ρ → σ → Bool) (trusted newRoot : Option ρ) (c : σ) : Option ρ :=
  match trusted, newRoot with
  | none, _ => none
  | some _, none => none
  | some t, some n => if size t ≠ 0 then (if cons t n c then some n else none) else some n

/-- verifier.go:36-57 `VerifyInclusionWithPrevLogRoot` -/
def verifyInclusionWithPrevLogRoot (incl : ρ → κ → π → Outcome) (size : ρ → Nat) (cons : ρ → ρ → σ → Bool) (trusted newRoot : Option ρ) (c : σ) (leaf : κ)
    (proofs : List (Option π)) : Res :=
  match trusted, newRoot with
  | none, _ => .refused
  | some _, none => .refused
  | some t, some n =>
    match verifyInclusionByHash incl t leaf proofs with
    | .accepted =>
      match verifyRoot size cons (some t) (some n) c with
      | some _ => .accepted
      | none => .refused
    | r => r

end Fpki.LogVerifier
