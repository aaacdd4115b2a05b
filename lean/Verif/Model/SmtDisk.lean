import Verif.Model.SmtStore

/-!
# Model of `UpdateSMT`: what is in the DB at each moment

`UpdateSMT` (pkg/mapserver/updater/updater.go:521-568) writes the tables `tree` and `root` with single SQL statements outside of transactions. A crash leaves what the statements executed so far have written.
-/
namespace Fpki.SmtStore

open Fpki.Smt (KVs Key)

/-- The tables `tree` and `root` (the latter has at most one row, tools/create_schema.sh:156-162). -/
structure Disk where
  tree : Bytes → Option Bytes
  root : Option Bytes

/-- updater.go:524-541: `LoadRoot` and `NewTrie` (pkg/db/mysql/smt.go:12-21, updater.go:570-578 `loadRoot`). -/
def Disk.trie (d : Disk) : Trie := newTrie (d.root.getD []) d.tree

/-- updater.go:448-484 `updateSMTfromDirty`, 488-519 `updateSMTFromDomainEntries` and 557-568 of `UpdateSMT`: the disks after each DB write, with the bundles of key/value pairs of the dirty domains (updater.go:478, `domainEntriesToSMTInput` is in Model/Updater). An error of `Update` ends the list. The last disk is that after `SaveRoot` (pkg/db/mysql/smt.go:23-30), which is not reached for a nil root (panic). -/
def bundleDisks (c : Cfg) (saved : Option Bytes) : Trie → List KVs → List Disk
  | tr, [] => if tr.root.length ≠ 0 then [⟨tr.st.db, some tr.root⟩] else []
  | tr, kvs :: rest =>
    match tr.update c kvs with
    | none => []
    | some tr1 => ⟨written tr1.st, saved⟩ :: ⟨tr1.commit.st.db, saved⟩ :: bundleDisks c saved tr1.commit.resetLive rest

/-- updater.go:524-568 `UpdateSMT`: all disks a crash may leave, from the one at the start to the last one. Without dirty domains nothing is written (updater.go:543-551). -/
def updateSMT (c : Cfg) (d : Disk) (bundles : List KVs) : List Disk := d :: if bundles.isEmpty then [] else bundleDisks c d.root d.trie bundles

/-- A value read from what is in the DB: a new process calls `LoadRoot`, `NewTrie` and `Get` (`none` is an error). -/
def Disk.read (c : Cfg) (d : Disk) (key : Key) : Option (Option Bytes) := (d.trie.get c key).map Prod.fst

end Fpki.SmtStore
