import Verif.Model.Db
import Verif.Model.Dirty
import Verif.Model.Responder

/-!
# Model of the update cycle and the answers as one system:
`pkg/mapserver/mapserver.go` (`pruneAndUpdate`, `update`), `pkg/mapserver/updater/updater.go` (`UpdateSMT`), `pkg/mapserver/responder/responder.go`

The tables (`Db`), the tree under the saved root and the tree the responder has loaded change step by step; every SQL statement can be the last one before a
crash. Simplification: the tree is a value. That saving and loading it loses nothing is the subject of `SmtStore` and `SmtDisk`. If UpdateSMT fails
half way, the new root is not saved: such a failure changes nothing here.
-/
namespace Fpki.E2E
open Fpki.Db (DB Payload shardOf)
open Fpki.Chains (X509)
open Fpki.Smt (Node)

/-- The state of the map server. -/
structure Sys where
  db : DB
  /-- the tree under the root in the table `root` (updater.go:549-557) -/
  tree : Node
  /-- responder.go:52-62: the tree of the responder -/
  served : Node

/-- certs.go:231-247, policies.go:121-137: the columns of `domain_payloads` read by the responder; NULL and a missing row give empty slices. -/
def tableOf (db : DB) (id : Bytes) : Responder.Row :=
  match db.payloads.find? (fun r => r.domain == id) with
  | some r => ⟨r.certIds.getD [], r.policyIds.getD []⟩
  | none => ⟨[], []⟩

/-- mysql.go:357-387, 518-537 `extractDomainEntries`: the result of the query for the payloads of dirty domains. A relation, because `SortIDsAndGlue` is one. -/
def PayloadQuery (db : DB) (q : Bytes → Option Bytes) : Prop :=
  ∀ id, (db.payloads.find? (fun r => r.domain == id) = none ∧ q id = none) ∨
    (db.payloads.find? (fun r => r.domain == id) ≠ none ∧ ∃ v, Ids.SortIDsAndGlue (tableOf db id).ids v ∧ q id = some v)

/-- mysql.go:419-433: the rows of a partition of `dirty`, `ORDER BY domain_id`, whatever their flag. -/
def dirtyPart (db : DB) (p : Nat) : List Bytes :=
  ((db.dirty.filter (fun r => shardOf r.1 == p)).map Prod.fst).mergeSort (fun a b => !bytesLt b a)

/-- updater.go:524-568 `UpdateSMT` with bundles of at most `max` domains; `none` is the panic "SMT tree root is nil". `fuel` and `n` bound the loops of the model, the code has no bounds. -/
inductive UpdateSMT (H : Bytes → Bytes) (max : Nat) (db : DB) (t : Node) : Option Node → Prop
  | clean : db.dirty = [] → UpdateSMT H max db t (some t)
  | run (q : Bytes → Option Bytes) (fuel n : Nat) (bundles : List (List Bytes)) (t' : Node) : db.dirty ≠ [] → PayloadQuery db q →
      db.dirty.length + 32 < fuel → db.dirty.length < n →
      Dirty.collect (dirtyPart db) fuel (fun _ => max) n 0 none = some bundles →
      Dirty.SmtFromBundles H 256 t (bundles.map (Dirty.entriesPreserveMissing q)) t' →
      UpdateSMT H max db t (if t' = .empty then none else some t')

/-- updater.go:432-434: the elements not in the mask, moved to the front. -/
def unmasked (mask : List Bool) (l : List α) : List α := ((mask.zip l).filter (fun p => !p.1)).map (·.2)

/-- updater.go:413-422: the policies not to be written: with `keep = some maxLen` (`UpdateWithKeepExisting`, with the limit of GROUP_CONCAT) those that exist, otherwise none. -/
def policyMask (H : Bytes → Bytes) (db : DB) (keep : Option Nat) (ps : List (Bytes × Bytes)) : List Bool :=
  match keep with
  | some maxLen => Db.checkPoliciesExist maxLen (fun i => db.policies.any (fun c => c.id == i)) (ps.map (fun p => H p.2))
  | none => ps.map (fun _ => false)

/-- updater.go:351-365 (`keep = none`: `UpdateWithOverwrite`) and updater.go:413-435 (`keep = some maxLen`: `UpdateWithKeepExisting`): the statements for policies, given by
subject and payload. -/
def policySteps (H : Bytes → Bytes) (db : DB) (keep : Option Nat) (ps : List (Bytes × Bytes)) : Option (List (DB → DB)) :=
  let ids := ps.map (fun p => H p.2)
  let mask := policyMask H db keep ps
  Db.insertPolicySteps H (unmasked mask (ps.map Prod.fst)) (unmasked mask ids) (unmasked mask (ps.map Prod.snd))

/-- updater.go:294-320 `updateCertBatch`: the statements for a batch of certificates with their chains. -/
def certSteps (H : Bytes → Bytes) (db : DB) (leaves : List X509) (chains : List (List X509)) : Option (List (DB → DB)) :=
  let u := Chains.unfoldCerts H leaves chains
  Db.keepExistingSteps H db (u.names.map (·.getD [])) u.ids u.parents (u.certs.map X509.raw) (Chains.extractExpirations u.certs)

/-- What can happen. `k` is the number of statements done: 4 are all of them. -/
inductive Op where
  | certs (leaves : List X509) (chains : List (List X509)) (k : Nat)
  | policies (keep : Option Nat) (ps : List (Bytes × Bytes)) (k : Nat)
  | prune (cut : Nat)
  | pruneCut (cut : Nat)
  | coalesce (p : Nat)
  | smt
  | finish
  | reload

/-- mapserver.go:301-388: the parts of an update, and what is left if it stops after any of them. The pruning of certificates is create_schema.sh:396-432 (two statements); a coalescing
is one call of `calc_dirty_domains` (dirty.go:237-262), for one partition; UpdateSMT is only reached when all of them have nothing left to do. `finish` is UpdateSMT followed by CleanupDirty. -/
inductive Step (H : Bytes → Bytes) (s : Sys) : Op → Sys → Prop
  | certs (leaves : List X509) (chains : List (List X509)) (k : Nat) (st : List (DB → DB)) : leaves.length = chains.length →
      certSteps H s.db leaves chains = some st → Step H s (.certs leaves chains k) { s with db := Db.runSteps (st.take k) s.db }
  | policies (keep : Option Nat) (ps : List (Bytes × Bytes)) (k : Nat) (st : List (DB → DB)) :
      policySteps H s.db keep ps = some st → Step H s (.policies keep ps k) { s with db := Db.runSteps (st.take k) s.db }
  | prune (cut fuel : Nat) (db' : DB) : Db.pruneCerts fuel s.db cut = some db' → Step H s (.prune cut) { s with db := db' }
  | pruneCut (cut fuel : Nat) (db' : DB) : Db.pruneCerts fuel s.db cut = some db' → Step H s (.pruneCut cut) { s with db := { s.db with dirty := db'.dirty } }
  | coalesce (p fuel chunk n : Nat) (db' : DB) : s.db.certs.length < fuel → s.db.policies.length < fuel → 0 < chunk →
      Db.calcDirtyDomains fuel s.db p chunk = some (db', n) → Step H s (.coalesce p) { s with db := db' }
  | smt (max : Nat) (t' : Node) : 0 < max → (∀ d, (d, false) ∉ s.db.dirty) → UpdateSMT H max s.db s.tree (some t') → Step H s .smt { s with tree := t' }
  | finish (max : Nat) (t' : Node) : 0 < max → (∀ d, (d, false) ∉ s.db.dirty) → UpdateSMT H max s.db s.tree (some t') →
      Step H s .finish { s with db := Db.cleanupDirty s.db, tree := t' }
  | reload : Step H s .reload { s with served := s.tree }

/-- The new map server: empty tables, no root. -/
def start : Sys := ⟨⟨[], [], [], [], [], [], []⟩, .empty, .empty⟩

/-- Everything that happened so far. -/
inductive Run (H : Bytes → Bytes) : List Op → Sys → Prop
  | nil : Run H [] start
  | snoc (ops : List Op) (s s' : Sys) (op : Op) : Run H ops s → Step H s op s' → Run H (ops ++ [op]) s'

end Fpki.E2E
