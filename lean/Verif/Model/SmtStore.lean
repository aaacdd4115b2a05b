import Verif.Model.Smt
import Verif.Model.SmtBatch

/-!
# Model of `pkg/mapserver/trie`: the trie on batches, caches and DB

The trie as the code has it: nodes live in batches of 31 slots, batches are found by the digest of their root node in the live cache, among the updated nodes, or in the DB.

* A batch is a list of 31 byte strings (`[]` is nil). Batches are passed by value. In the code the slice that is changed in place may also be an entry of a cache, under the digest of the old root; that entry is deleted before `update` returns, so sharing shows only after errors (not modelled).
* `atomicUpdate` is a field of the configuration: false in `Update`, true in `AtomicUpdate` (`Verif.Model.SmtPast`). With it, `loadBatch` returns copies of the cached batches (trie.go:544-551, 557-563); batches are values here, so this does not show.
* `updateParallel` runs both sides on disjoint slots; they are modelled sequentially here, and with goroutines in `Verif.Model.SmtPar` (C89).
* `HashLength` is 32; `n` is `TrieHeight` (256).
* The DB answers every query (no DB errors); a missing entry is an empty value. `none` is the error "the trie node is unavailable in the disk db".
-/
namespace Fpki.SmtStore

open Fpki.Smt (KVs Key Val byteOf defaultLeaf maybeAdd splitKeys serializeBatch parseBatch)

abbrev Batch := List Bytes

/-- The hash function, `TrieHeight`, `CacheHeightLimit` and `atomicUpdate` (trie.go:38-60; set in trie.go:102, 132). -/
structure Cfg where
  H : Bytes → Bytes
  n : Nat
  lim : Nat
  atomic : Bool := false

/-- trie_cache.go:18-38 `CacheDB`; `db` is the table `tree`. -/
structure St where
  live : Bytes → Option Batch
  upd : Bytes → Option Batch
  removed : List Bytes
  db : Bytes → Option Bytes

/-- `copy(node[:], root)`: the first 32 bytes, filled up with zeros. -/
def toHash (root : Bytes) : Bytes := (root ++ List.replicate 32 0).take 32

/-- The map with a new value for `d`. -/
def mapSet {α : Type} (f : Bytes → Option α) (d : Bytes) (v : Option α) : Bytes → Option α := fun x => if x = d then v else f x

/-- `batch[i]` -/
def slot (b : Batch) (i : Nat) : Bytes := b.getD i []

/-- The flag byte of a node, `node[HashLength]`. -/
def flagOf (s : Bytes) : Byte := s.getD 32 0

/-- trie.go:520-523: a new default batch. -/
def newBatch : Batch := [0] :: List.replicate 30 []

/-- trie.go:178: the batch of a leaf at height 0. -/
def nilBatch : Batch := List.replicate 31 []

/-- trie.go:368-380 `deleteOldNode`, trie_cache.go:144-148 `deleteLiveCache`, 186-190 `deleteUpdatedNodes` -/
def deleteOldNode (c : Cfg) (root : Bytes) (height : Nat) (movingUp : Bool) (s : St) : St :=
  { s with upd := if !c.atomic || movingUp then mapSet s.upd (toHash root) none else s.upd, live := if c.lim ≤ height then mapSet s.live (toHash root) none else s.live }

/-- trie_cache.go:197-201 `addRemoveNode`, as called in trie.go:219-221, 234-236, 240-242, 246-248: not for a nil root, and only for the root of a batch. -/
def addRemove (root : Bytes) (height : Nat) (s : St) : St :=
  if toHash root ≠ List.replicate 32 0 ∧ height % 4 = 0 then { s with removed := toHash root :: s.removed } else s

/-- trie.go:609-621 `storeNode`, trie_cache.go:151-155 `updateLiveCache`, 179-183 `updateUpdateNodes` -/
def storeNode (c : Cfg) (batch : Batch) (h oldRoot : Bytes) (height : Nat) (s : St) : St :=
  if h = oldRoot then s
  else deleteOldNode c oldRoot height false
    { s with upd := mapSet s.upd (toHash h) (some batch), live := if c.lim ≤ height then mapSet s.live (toHash h) (some batch) else s.live }

/-- trie.go:537-585 `loadBatch`, trie_cache.go:158-163 `getLiveCache`, 171-176 `getUpdatedNodes`, 107-113 `getValueLockFree` -/
def loadBatch (c : Cfg) (root : Bytes) (height : Nat) (s : St) : Option (Batch × St) :=
  match s.live (toHash root) with
  | some b => some (b, s)
  | none =>
    match s.upd (toHash root) with
    | some b => some (b, s)
    | none =>
      match s.db (root.take 32) with
      | none => none
      | some val =>
        if val.length = 0 then none
        else if c.lim ≤ height ∧ height % 4 = 0 then some (parseBatch val, { s with live := mapSet s.live (root.take 32) (some (parseBatch val)) })
        else some (parseBatch val, s)

/-- What `loadChildren` returns: batch, index, children, `isShortcut`. -/
structure Loaded where
  batch : Batch
  i : Nat
  l : Bytes
  r : Bytes
  isShortcut : Bool
  st : St

/-- trie.go:510-534 `loadChildren` -/
def loadChildren (c : Cfg) (root : Bytes) (height iBatch : Nat) (batch : Batch) (s : St) : Option Loaded :=
  if height % 4 = 0 then
    if root.length = 0 then some ⟨newBatch, 0, [], [], false, s⟩
    else
      match loadBatch c root height s with
      | none => none
      | some (b, s') => some ⟨b, 0, slot b 1, slot b 2, (slot b 0).getD 0 0 == 1, s'⟩
  else some ⟨batch, iBatch, slot batch (2 * iBatch + 1), slot batch (2 * iBatch + 2), (slot batch iBatch).length ≠ 0 && flagOf (slot batch iBatch) == 1, s⟩

/-- What `update` returns (trie.go:152-157 `mResult`), with the batch of the caller and the state afterwards. -/
structure Res where
  node : Bytes
  deleted : Bool
  batch : Batch
  st : St

/-- trie.go:589-606 `leafHash`: node, batch and state. -/
def leafHash (c : Cfg) (key value oldRoot : Bytes) (batch : Batch) (iBatch height : Nat) (s : St) : Bytes × Batch × St :=
  let h := c.H (key ++ value ++ [byteOf height]) ++ [1]
  let b := (batch.set (2 * iBatch + 2) (value ++ [2])).set (2 * iBatch + 1) (key ++ [2])
  if height % 4 = 0 then (h, b.set 0 [1], storeNode c (b.set 0 [1]) h oldRoot height s) else (h, b, s)

/-- A child in the input of the hash: `DefaultLeaf` for nil. -/
def child (s : Bytes) : Bytes := if s.length = 0 then defaultLeaf else s.take 32

/-- trie.go:624-642 `interiorHash` (panics if both children are nil; see C66). -/
def interiorHash (c : Cfg) (left right oldRoot : Bytes) (batch : Batch) (iBatch height : Nat) (s : St) : Bytes × Batch × St :=
  let h := c.H (child left ++ child right) ++ [0]
  let b := (batch.set (2 * iBatch + 2) right).set (2 * iBatch + 1) left
  if height % 4 = 0 then (h, b.set 0 [0], storeNode c (b.set 0 [0]) h oldRoot height s) else (h, b, s)

/-- trie.go:421-457 `moveUpShortcut`; `none` is an error. -/
def moveUp (c : Cfg) (shortcut root : Bytes) (batch : Batch) (iBatch iShortcut height : Nat) (s : St) : Option Res :=
  match loadChildren c shortcut (height - 1) iShortcut batch s with
  | none => none
  | some ld =>
    let new := c.H (ld.l.take 32 ++ ld.r.take 32 ++ [byteOf height]) ++ [1]
    let b := (batch.set (2 * iBatch + 1) ld.l).set (2 * iBatch + 2) ld.r
    if iBatch = 0 then
      let b' := ((b.set 0 [1]).set (2 * iShortcut + 1) []).set (2 * iShortcut + 2) []
      some ⟨new, true, b', storeNode c b' new root height ld.st⟩
    else if (height - 1) % 4 = 0 then some ⟨new, true, b, deleteOldNode c shortcut height true ld.st⟩
    else some ⟨new, true, (b.set (2 * iShortcut + 1) []).set (2 * iShortcut + 2) [], ld.st⟩

/-- trie.go:257-274, 277-294, 297-325 (after the recursive calls) with 393-419 `maybeMoveUpShortcut`. -/
def join (c : Cfg) (deleted : Bool) (left right root : Bytes) (batch : Batch) (iBatch height : Nat) (s : St) : Option Res :=
  let int := interiorHash c left right root batch iBatch height s
  if deleted then
    if left.length = 0 ∧ right.length = 0 then
      if iBatch = 0 then some ⟨[], true, batch, deleteOldNode c root height true s⟩
      else some ⟨[], true, (batch.set (2 * iBatch + 1) []).set (2 * iBatch + 2) [], s⟩
    else if left.length = 0 then
      if flagOf right = 1 then moveUp c right root batch iBatch (2 * iBatch + 2) height s else some ⟨int.1, false, int.2.1, int.2.2⟩
    else if right.length = 0 then
      if flagOf left = 1 then moveUp c left root batch iBatch (2 * iBatch + 1) height s else some ⟨int.1, false, int.2.1, int.2.2⟩
    else some ⟨int.1, false, int.2.1, int.2.2⟩
  else some ⟨int.1, false, int.2.1, int.2.2⟩

/-- trie.go:211-254 (second part of `update`) with 257-274 `updateRight`, 277-294 `updateLeft`, 297-325 `updateParallel`; `upd` is the recursive call at the height below. -/
def branch (c : Cfg) (upd : Bytes → KVs → Batch → Nat → St → Option Res) (root lNode rNode : Bytes) (keys : KVs) (batch : Batch) (iBatch height : Nat) (s : St) : Option Res :=
  match lNode, rNode, keys with
  | [], [], [(_, none)] => some ⟨[], true, batch, s⟩
  | [], [], [(k, some v)] =>
    let q := leafHash c k v root batch iBatch height (addRemove root height s)
    some ⟨q.1, false, q.2.1, q.2.2⟩
  | _, _, _ =>
    let sp := splitKeys (c.n - height) keys
    let s := addRemove root height s
    if sp.1.isEmpty && !sp.2.isEmpty then
      match upd rNode keys batch (2 * iBatch + 2) s with
      | none => none
      | some q => join c q.deleted lNode q.node root q.batch iBatch height q.st
    else if !sp.1.isEmpty && sp.2.isEmpty then
      match upd lNode keys batch (2 * iBatch + 1) s with
      | none => none
      | some q => join c q.deleted q.node rNode root q.batch iBatch height q.st
    else
      match upd lNode sp.1 batch (2 * iBatch + 1) s with
      | none => none
      | some ql =>
        match upd rNode sp.2 ql.batch (2 * iBatch + 2) ql.st with
        | none => none
        | some qr => join c (ql.deleted || qr.deleted) ql.node qr.node root qr.batch iBatch height qr.st

/-- trie.go:162-210: after the children are loaded. -/
def afterLoad (c : Cfg) (upd : Bytes → KVs → Batch → Nat → St → Option Res) (root : Bytes) (keys : KVs) (height : Nat) (ld : Loaded) : Option Res :=
  if ld.isShortcut then
    let keys' := maybeAdd (ld.l.take 32) (ld.r.take 32) keys
    let s := if ld.i = 0 then deleteOldNode c root height false ld.st else ld.st
    let b := (ld.batch.set (2 * ld.i + 1) []).set (2 * ld.i + 2) []
    if keys'.isEmpty then some ⟨[], true, b, s⟩ else branch c upd root [] [] keys' b ld.i height s
  else branch c upd root ld.l ld.r keys ld.batch ld.i height ld.st

/-- The batch of the caller is not changed if another batch was loaded. -/
def keepBatch (height : Nat) (batch : Batch) (r : Option Res) : Option Res :=
  r.map (fun q => if height % 4 = 0 then { q with batch := batch } else q)

/-- trie.go:162-254 `update`. Structural recursion on the height; `none` is an error. -/
def update (c : Cfg) : Nat → Bytes → KVs → Batch → Nat → St → Option Res
  | _, _, [], batch, _, s => some ⟨[], false, batch, s⟩
  | 0, root, (_, none) :: _, batch, _, s => some ⟨[], true, batch, deleteOldNode c root 0 false s⟩
  | 0, root, (k, some v) :: _, batch, _, s =>
    let q := leafHash c k v root nilBatch 0 0 s
    some ⟨q.1, false, batch, q.2.2⟩
  | h + 1, root, kv :: kvs, batch, iBatch, s =>
    match loadChildren c root (h + 1) iBatch batch s with
    | none => none
    | some ld => keepBatch (h + 1) batch (afterLoad c (update c h) root (kv :: kvs) (h + 1) ld)

/-- A `Trie` (trie.go:29-65): its root ([] is nil) and its caches and DB. -/
structure Trie where
  root : Bytes
  st : St

/-- trie.go:68-85 `NewTrie` -/
def newTrie (root : Bytes) (db : Bytes → Option Bytes) : Trie := ⟨root, ⟨fun _ => none, fun _ => none, [], db⟩⟩

/-- trie.go:99-124 `Update` for equally long `keys` and `values`; `none` is an error. -/
def Trie.update (c : Cfg) (t : Trie) (kvs : KVs) : Option Trie :=
  if kvs.isEmpty then some t
  else
    match SmtStore.update c c.n t.root kvs [] 0 t.st with
    | none => none
    | some q => some ⟨if q.node.length ≠ 0 then q.node.take 32 else [], q.st⟩

/-- The DB after `UpdateTreeNodes` of the updated nodes (pkg/db/mysql/smt.go:63-82), in trie_cache.go:84. -/
def written (s : St) : Bytes → Option Bytes := fun d =>
  match s.upd d with
  | some b => some (serializeBatch b)
  | none => s.db d

/-- The DB after `DeleteTreeNodes` (pkg/db/mysql/smt.go:45-60), in trie_cache.go:90. -/
def erase (ks : List Bytes) (db : Bytes → Option Bytes) : Bytes → Option Bytes := fun d => if d ∈ ks then none else db d

/-- trie_cache.go:59-99 `commitChangesToDB`, trie_tools.go:111-117 `Commit` (no DB errors) -/
def commit (s : St) : St := { s with upd := fun _ => none, removed := [], db := erase s.removed (written s) }

def Trie.commit (t : Trie) : Trie := { t with st := SmtStore.commit t.st }

/-- trie.go:658-662 `ResetLiveCache` -/
def Trie.resetLive (t : Trie) : Trie := { t with st := { t.st with live := fun _ => none } }

/-- trie_tools.go:88-109 `get`: value and state (the live cache may grow); `none` is an error. -/
def get (c : Cfg) : Nat → Bytes → Key → Batch → Nat → St → Option (Option Bytes × St)
  | height, root, key, batch, iBatch, s =>
    if root.length = 0 then some (none, s)
    else
      match loadChildren c root height iBatch batch s with
      | none => none
      | some ld =>
        if ld.isShortcut then some (if ld.l.take 32 = key then some (ld.r.take 32) else none, ld.st)
        else
          match height with
          | 0 => some (none, ld.st)
          | h + 1 => if bitIsSet key (c.n - (h + 1)) then get c h ld.r key ld.batch (2 * ld.i + 2) ld.st else get c h ld.l key ld.batch (2 * ld.i + 1) ld.st

/-- trie_tools.go:80-85 `Get` -/
def Trie.get (c : Cfg) (t : Trie) (key : Key) : Option (Option Bytes × St) := SmtStore.get c c.n t.root key [] 0 t.st

/-- A leaf found at the end of a path (trie_merkle_proof.go:93-99). -/
def leafProof (l r : Bytes) (key : Key) : Smt.Proof := if l.take 32 = key then ⟨[], true, none, some (r.take 32)⟩ else ⟨[], false, some (l.take 32), some (r.take 32)⟩

/-- trie_merkle_proof.go:80-128 `merkleProof`: proof and state (the live cache may grow); `none` is an error. -/
def merkleProof (c : Cfg) : Nat → Bytes → Key → Batch → Nat → St → Option (Smt.Proof × St)
  | height, root, key, batch, iBatch, s =>
    if root.length = 0 then some (⟨[], false, none, none⟩, s)
    else
      match loadChildren c root height iBatch batch s with
      | none => none
      | some ld =>
        if ld.isShortcut || height == 0 then some (leafProof ld.l ld.r key, ld.st)
        else
          match height with
          | 0 => none
          | h + 1 =>
            if bitIsSet key (c.n - (h + 1)) then
              match merkleProof c h ld.r key ld.batch (2 * ld.i + 2) ld.st with
              | none => none
              | some (p, s') => some ({ p with path := p.path ++ [child ld.l] }, s')
            else
              match merkleProof c h ld.l key ld.batch (2 * ld.i + 1) ld.st with
              | none => none
              | some (p, s') => some ({ p with path := p.path ++ [child ld.r] }, s')

/-- trie_merkle_proof.go:21-23 `MerkleProof`, 31-38 `MerkleProofR` for the current root -/
def Trie.merkleProof (c : Cfg) (t : Trie) (key : Key) : Option (Smt.Proof × St) := SmtStore.merkleProof c c.n t.root key [] 0 t.st

end Fpki.SmtStore
