import Verif.Model.Pipe
/-!
# Model of the pipeline of the updater: its stages and links
`pkg/mapserver/updater/manager.go:137-309` (`createPipeline`)

The functions of the stages are a parameter: here only the network is modelled. All stages have the default output mode (stage.go:109).
-/
namespace Fpki.Pipe
open Fpki.Stage (Mode)

variable {α σ : Type}

/-- manager.go:115-124: the indices of the stages, with `w` workers: A 0; B 1..w; C w+1..2w; D 2w+1..3w; E 3w+1..4w; F 4w+1..5w; G 5w+1..6w; H 6w+1..7w; I 7w+1..8w; J 8w+1..9w.
manager.go:230-303: the links, in this order: A→Bi, A→Ci, Bi→Di, Di→Ei, Ei→Fi, Ci→Gj, Gi→Hi, Hi→Ii, Ii→Ji. -/
def managerSrc (w k : Nat) : Nat :=
  if k < 2 * w then 0
  else if k < 3 * w then 1 + (k - 2 * w)
  else if k < 4 * w then 2 * w + 1 + (k - 3 * w)
  else if k < 5 * w then 3 * w + 1 + (k - 4 * w)
  else if k < 5 * w + w * w then w + 1 + (k - 5 * w) / w
  else 5 * w + 1 + (k - (5 * w + w * w))

def managerDst (w k : Nat) : Nat :=
  if k < 2 * w then 1 + k
  else if k < 3 * w then 2 * w + 1 + (k - 2 * w)
  else if k < 4 * w then 3 * w + 1 + (k - 3 * w)
  else if k < 5 * w then 4 * w + 1 + (k - 4 * w)
  else if k < 5 * w + w * w then 5 * w + 1 + (k - 5 * w) % w
  else 6 * w + 1 + (k - (5 * w + w * w))

/-- manager.go:137-309 -/
def managerNet (w : Nat) (fn : Nat → Fn α σ) : Net α σ := ⟨9 * w + 1, 8 * w + w * w, managerSrc w, managerDst w, fun _ => .concurrent, fn⟩

end Fpki.Pipe
