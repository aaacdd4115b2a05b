import Verif.Model.Bytes

/-!
# Model of several processes that update the same DB

The map server updates on a timer (pkg/mapserver/mapserver.go:113-140); `mapserver -policy file` (cmd/mapserver/main.go:77-127 `insertPolicyFromFile`) and `ingest` (cmd/ingest) are other processes that insert into the same DB, and the former also runs `CoalescePayloadsForDirtyDomains`, `UpdateSMT` and `CleanupDirty`. Nothing keeps them apart.

Simplifications: coalescing is one step (its statements are in `Verif.Model.Coalesce`), and so is reading the dirty domains (updater.go:448-484; `Verif.Model.Dirty`). The tree is its content (C01), and its rows in the table `tree` are always readable (`Verif.Model.SmtStore`; see also `C114_rows_violated`).
-/
namespace Fpki.Two

/-- What a process is doing. -/
inductive Proc where
  /-- nothing (it may insert certificates and policies) -/
  | idle
  /-- mapserver.go:349-352: coalescing is done -/
  | coalesced
  /-- updater.go:524-541: the root is loaded; `t` is the content of its tree. -/
  | loaded (t : Bytes → Option Bytes)
  /-- updater.go:553: the tree is updated with the payloads of all dirty domains. -/
  | updated (t : Bytes → Option Bytes)
  /-- updater.go:550, 561-567: UpdateSMT has returned; the root is saved if there were dirty domains. -/
  | saved

/-- The DB and the processes. -/
structure Sys where
  /-- the payload that follows from the tables of certificates, policies and links (C22); `none`: the domain has none of them -/
  right : Bytes → Option Bytes
  /-- the payload in `domain_payloads` -/
  payload : Bytes → Option Bytes
  /-- the table `dirty`: `none` if the domain is not in it, otherwise the column `coalesced` -/
  dirty : Bytes → Option Bool
  /-- the content of the tree under the root in the table `root` -/
  tree : Bytes → Option Bytes
  procs : Nat → Proc

/-- What can happen. -/
inductive Ev where
  /-- Certificates or policies of a domain are inserted or pruned, so that `v` is its right payload; the domain becomes dirty. -/
  | insert (d : Bytes) (v : Option Bytes)
  | coalesce (i : Nat)
  | load (i : Nat)
  | update (i : Nat)
  | save (i : Nat)
  | clean (i : Nat)
  /-- The process ends, or UpdateSMT fails; it starts again. -/
  | crash (i : Nat)

def set (f : Nat → Proc) (i : Nat) (p : Proc) : Nat → Proc := fun j => if j = i then p else f j

open Classical in
/-- One step; `none` if the process is not at this point of its program. -/
noncomputable def exec (s : Sys) : Ev → Option Sys
  -- updater.go:390-435, 634-676, certs.go: all statements of an insertion at once; dirty.go:318 `REPLACE INTO TABLE dirty`
  | .insert d v => some { s with right := fun x => if x = d then v else s.right x, dirty := fun x => if x = d then some false else s.dirty x }
  -- mapserver.go:349-352, dirty.go:203-280
  | .coalesce i =>
    match s.procs i with
    | .idle => some { s with payload := fun x => if s.dirty x = some false then s.right x else s.payload x, dirty := fun x => if s.dirty x = some false then some true else s.dirty x, procs := set s.procs i .coalesced }
    | _ => none
  -- updater.go:524-541
  | .load i =>
    match s.procs i with
    | .coalesced => some { s with procs := set s.procs i (.loaded s.tree) }
    | _ => none
  -- updater.go:543-557: all domains in `dirty`, whatever their flag; without any, UpdateSMT returns
  | .update i =>
    match s.procs i with
    | .loaded t => some { s with procs := set s.procs i (if ∃ x, s.dirty x ≠ none then .updated (fun x => if s.dirty x = none then t x else s.payload x) else .saved) }
    | _ => none
  -- updater.go:559-567, pkg/db/mysql/smt.go:23-30
  | .save i =>
    match s.procs i with
    | .updated t => some { s with tree := t, procs := set s.procs i .saved }
    | _ => none
  -- mapserver.go:360-364, dirty.go:187-195 `TRUNCATE dirty`
  | .clean i =>
    match s.procs i with
    | .saved => some { s with dirty := fun _ => none, procs := set s.procs i .idle }
    | _ => none
  | .crash i => some { s with procs := set s.procs i .idle }

/-- One step after the other. -/
noncomputable def run (s : Sys) : List Ev → Option Sys
  | [] => some s
  | e :: es => (exec s e).bind (fun s => run s es)

/-- The empty DB. -/
def start : Sys := ⟨fun _ => none, fun _ => none, fun _ => none, fun _ => none, fun _ => .idle⟩

end Fpki.Two
