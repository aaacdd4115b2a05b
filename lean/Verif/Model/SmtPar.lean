import Verif.Model.SmtStore

/-!
# Model of `pkg/mapserver/trie`: `Update` with worker goroutines

`Update` as a program on a shared memory, run by any number of goroutines. One step is one access to the memory: a lookup or a change of one entry of the live cache, of the updated nodes or of the
nodes to be removed (each under its mutex, trie_cache.go:144-201), or a read or write of one slot of a batch (no mutex).
Simplifications, besides those of `Verif.Model.SmtStore`: a batch that was loaded or made at a position of the tree is kept in a part of the memory of its own, named by the path from the root to
that position (in the code it is the slice of the cache); storing a batch stores its 31 slots as they are then (in the code a reference to the slice, which is not written any more by this `Update`).
-/
namespace Fpki.SmtPar

open Fpki.Smt (KVs Key Val byteOf defaultLeaf maybeAdd splitKeys parseBatch)
open Fpki.SmtStore (Batch Cfg toHash slot flagOf newBatch nilBatch child)

/-- A place of the memory: an entry of the live cache, of the updated nodes, of the nodes to be removed; a slot of the batch of a position. -/
inductive Loc where
  | live (d : Bytes)
  | upd (d : Bytes)
  | rem (d : Bytes)
  | slot (p : List Bool) (m : Nat)
deriving DecidableEq

/-- What a place holds: nothing, a batch, a node, or (for a node to be removed) that it is there. -/
inductive Cell where
  | none
  | batch (b : Batch)
  | bytes (x : Bytes)
  | present
deriving DecidableEq

abbrev Mem := Loc → Cell

def Mem.set (σ : Mem) (l : Loc) (v : Cell) : Mem := fun x => if x = l then v else σ x

/-- trie.go:152-157 `mResult`; `none` is an error. -/
structure Result where
  node : Bytes
  deleted : Bool
deriving DecidableEq

abbrev R := Option Result

/-- A program. `par nl nr p q k` is `updateParallel` (trie.go:297-325): both sides, with `nl` and `nr` keys, then `k` with their results. -/
inductive Prog where
  | ret (r : R)
  | get (l : Loc) (k : Cell → Prog)
  | put (l : Loc) (v : Cell) (k : Prog)
  | par (nl nr : Nat) (p q : Prog) (k : R → R → Prog)

/-- `p` and then `f` with its result (`newCh` of trie.go:259-261, 279-281). -/
def Prog.bind : Prog → (R → Prog) → Prog
  | .ret r, f => f r
  | .get l k, f => .get l fun v => (k v).bind f
  | .put l v k, f => .put l v (k.bind f)
  | .par nl nr p q k, f => .par nl nr p q fun a b => (k a b).bind f

/-! ## The program `update` -/

/-- trie.go:368-380 `deleteOldNode` -/
def delP (c : Cfg) (root : Bytes) (height : Nat) (movingUp : Bool) (k : Prog) : Prog :=
  let k' := if c.lim ≤ height then .put (.live (toHash root)) .none k else k
  if !c.atomic || movingUp then .put (.upd (toHash root)) .none k' else k'

/-- trie_cache.go:197-201 `addRemoveNode`, as called in trie.go:219-221, 234-236, 240-242, 246-248 -/
def remP (root : Bytes) (height : Nat) (k : Prog) : Prog :=
  if toHash root ≠ List.replicate 32 0 ∧ height % 4 = 0 then .put (.rem (toHash root)) .present k else k

/-- trie.go:609-621 `storeNode` -/
def storeP (c : Cfg) (batch : Batch) (h oldRoot : Bytes) (height : Nat) (k : Prog) : Prog :=
  if h = oldRoot then k
  else .put (.upd (toHash h)) (.batch batch) (if c.lim ≤ height then .put (.live (toHash h)) (.batch batch) (delP c oldRoot height false k) else delP c oldRoot height false k)

/-- trie.go:570-584: the DB. -/
def readDb (c : Cfg) (db : Bytes → Option Bytes) (root : Bytes) (height : Nat) (k : Option Batch → Prog) : Prog :=
  match db (root.take 32) with
  | none => k none
  | some val =>
    if val.length = 0 then k none
    else if c.lim ≤ height ∧ height % 4 = 0 then .put (.live (root.take 32)) (.batch (parseBatch val)) (k (some (parseBatch val)))
    else k (some (parseBatch val))

/-- What was found in a cache. -/
def ifBatch (v : Cell) (k : Batch → Prog) (other : Prog) : Prog :=
  match v with
  | .batch b => k b
  | _ => other

/-- trie.go:537-585 `loadBatch` -/
def loadP (c : Cfg) (db : Bytes → Option Bytes) (root : Bytes) (height : Nat) (k : Option Batch → Prog) : Prog :=
  .get (.live (toHash root)) fun v => ifBatch v (fun b => k (some b))
    (.get (.upd (toHash root)) fun v => ifBatch v (fun b => k (some b)) (readDb c db root height k))

def Cell.toBytes : Cell → Bytes
  | .bytes x => x
  | _ => []

/-- Reading `batch[m]`. -/
def getSlot (p : List Bool) (m : Nat) (k : Bytes → Prog) : Prog := .get (.slot p m) fun v => k v.toBytes

/-- `batch[m] = x` -/
def putSlot (p : List Bool) (m : Nat) (x : Bytes) (k : Prog) : Prog := .put (.slot p m) (.bytes x) k

/-- The slots from `m` on of a batch that was loaded or made. -/
def putFrom (p : List Bool) : Nat → Batch → Prog → Prog
  | _, [], k => k
  | m, x :: xs, k => putSlot p m x (putFrom p (m + 1) xs k)

/-- The next `n` slots from `m` on. -/
def getFrom (p : List Bool) : Nat → Nat → (Batch → Prog) → Prog
  | 0, _, k => k []
  | n + 1, m, k => getSlot p m fun x => getFrom p n (m + 1) fun xs => k (x :: xs)

/-- What `loadChildren` returns: the batch (by the position where it was loaded), the index in it, the children, `isShortcut`. -/
structure Kids where
  ref : List Bool
  i : Nat
  l : Bytes
  r : Bytes
  isShortcut : Bool

/-- trie.go:510-534 `loadChildren` at position `pos`; `none` is an error. -/
def kidsP (c : Cfg) (db : Bytes → Option Bytes) (root : Bytes) (height : Nat) (pos ref : List Bool) (ix : Nat) (k : Option Kids → Prog) : Prog :=
  if height % 4 = 0 then
    if root.length = 0 then putFrom pos 0 newBatch (k (some ⟨pos, 0, [], [], false⟩))
    else loadP c db root height fun ob =>
      match ob with
      | none => k none
      | some b => putFrom pos 0 b (k (some ⟨pos, 0, slot b 1, slot b 2, (slot b 0).getD 0 0 == 1⟩))
  else getSlot ref ix fun x => getSlot ref (2 * ix + 1) fun l => getSlot ref (2 * ix + 2) fun r => k (some ⟨ref, ix, l, r, x.length ≠ 0 && flagOf x == 1⟩)

/-- trie.go:589-606 `leafHash`, and returning the node -/
def leafP (c : Cfg) (key value oldRoot : Bytes) (ref : List Bool) (ix height : Nat) : Prog :=
  let h := c.H (key ++ value ++ [byteOf height]) ++ [1]
  putSlot ref (2 * ix + 2) (value ++ [2]) (putSlot ref (2 * ix + 1) (key ++ [2])
    (if height % 4 = 0 then putSlot ref 0 [1] (getFrom ref 31 0 fun b => storeP c b h oldRoot height (.ret (some ⟨h, false⟩))) else .ret (some ⟨h, false⟩)))

/-- trie.go:624-642 `interiorHash`, and returning the node -/
def interiorP (c : Cfg) (left right oldRoot : Bytes) (ref : List Bool) (ix height : Nat) : Prog :=
  let h := c.H (child left ++ child right) ++ [0]
  putSlot ref (2 * ix + 2) right (putSlot ref (2 * ix + 1) left
    (if height % 4 = 0 then putSlot ref 0 [0] (getFrom ref 31 0 fun b => storeP c b h oldRoot height (.ret (some ⟨h, false⟩))) else .ret (some ⟨h, false⟩)))

/-- trie.go:428-456: `moveUpShortcut` with the key and value of the shortcut (as they are in their slots). -/
def movedP (c : Cfg) (l r shortcut root : Bytes) (ref : List Bool) (ix ish height : Nat) : Prog :=
  let new := c.H (l.take 32 ++ r.take 32 ++ [byteOf height]) ++ [1]
  if ix = 0 then
    putSlot ref 0 [1] (putSlot ref (2 * ix + 1) l (putSlot ref (2 * ix + 2) r (putSlot ref (2 * ish + 1) [] (putSlot ref (2 * ish + 2) []
      (getFrom ref 31 0 fun b => storeP c b new root height (.ret (some ⟨new, true⟩)))))))
  else if (height - 1) % 4 = 0 then putSlot ref (2 * ix + 1) l (putSlot ref (2 * ix + 2) r (delP c shortcut height true (.ret (some ⟨new, true⟩))))
  else putSlot ref (2 * ix + 1) l (putSlot ref (2 * ix + 2) r (putSlot ref (2 * ish + 1) [] (putSlot ref (2 * ish + 2) [] (.ret (some ⟨new, true⟩)))))

/-- trie.go:421-457 `moveUpShortcut`. (A shortcut that is the root of a batch is read from that batch, which is not changed.) -/
def moveUpP (c : Cfg) (db : Bytes → Option Bytes) (shortcut root : Bytes) (ref : List Bool) (ix ish height : Nat) : Prog :=
  if (height - 1) % 4 = 0 then
    if shortcut.length = 0 then movedP c [] [] shortcut root ref ix ish height
    else loadP c db shortcut (height - 1) fun ob =>
      match ob with
      | none => .ret none
      | some b => movedP c (slot b 1) (slot b 2) shortcut root ref ix ish height
  else getSlot ref ish fun _ => getSlot ref (2 * ish + 1) fun l => getSlot ref (2 * ish + 2) fun r => movedP c l r shortcut root ref ix ish height

/-- trie.go:266-273, 287-293, 317-324 with 393-419 `maybeMoveUpShortcut` -/
def joinP (c : Cfg) (db : Bytes → Option Bytes) (deleted : Bool) (left right root : Bytes) (ref : List Bool) (ix height : Nat) : Prog :=
  let int := interiorP c left right root ref ix height
  if deleted then
    if left.length = 0 ∧ right.length = 0 then
      if ix = 0 then delP c root height true (.ret (some ⟨[], true⟩))
      else putSlot ref (2 * ix + 1) [] (putSlot ref (2 * ix + 2) [] (.ret (some ⟨[], true⟩)))
    else if left.length = 0 then
      if flagOf right = 1 then moveUpP c db right root ref ix (2 * ix + 2) height else int
    else if right.length = 0 then
      if flagOf left = 1 then moveUpP c db left root ref ix (2 * ix + 1) height else int
    else int
  else int

/-- After the call for the only side with keys (trie.go:261-265, 281-285). -/
def oneSide (f : Result → Prog) : R → Prog
  | none => .ret none
  | some x => f x

/-- After the calls for both sides (trie.go:306-315). -/
def twoSides (f : Result → Result → Prog) : R → R → Prog
  | some x, some y => f x y
  | _, _ => .ret none

/-- trie.go:211-254 with 257-274 `updateRight`, 277-294 `updateLeft`, 297-325 `updateParallel` -/
def branchP (c : Cfg) (db : Bytes → Option Bytes) (upd : Bytes → KVs → List Bool → List Bool → Nat → Prog) (root lNode rNode : Bytes) (keys : KVs) (pos ref : List Bool) (ix height : Nat) : Prog :=
  match lNode, rNode, keys with
  | [], [], [(_, none)] => .ret (some ⟨[], true⟩)
  | [], [], [(k, some v)] => remP root height (leafP c k v root ref ix height)
  | _, _, _ =>
    let sp := splitKeys (c.n - height) keys
    remP root height
      (if sp.1.isEmpty && !sp.2.isEmpty then
        (upd rNode keys (pos ++ [true]) ref (2 * ix + 2)).bind (oneSide fun q => joinP c db q.deleted lNode q.node root ref ix height)
      else if !sp.1.isEmpty && sp.2.isEmpty then
        (upd lNode keys (pos ++ [false]) ref (2 * ix + 1)).bind (oneSide fun q => joinP c db q.deleted q.node rNode root ref ix height)
      else
        .par sp.1.length sp.2.length (upd lNode sp.1 (pos ++ [false]) ref (2 * ix + 1)) (upd rNode sp.2 (pos ++ [true]) ref (2 * ix + 2))
          (twoSides fun x y => joinP c db (x.deleted || y.deleted) x.node y.node root ref ix height))

/-- trie.go:162-210: after the children are loaded. -/
def afterP (c : Cfg) (db : Bytes → Option Bytes) (upd : Bytes → KVs → List Bool → List Bool → Nat → Prog) (root : Bytes) (keys : KVs) (pos : List Bool) (height : Nat) (ld : Kids) : Prog :=
  if ld.isShortcut then
    let keys' := maybeAdd (ld.l.take 32) (ld.r.take 32) keys
    let rest := putSlot ld.ref (2 * ld.i + 1) [] (putSlot ld.ref (2 * ld.i + 2) []
      (if keys'.isEmpty then .ret (some ⟨[], true⟩) else branchP c db upd root [] [] keys' pos ld.ref ld.i height))
    if ld.i = 0 then delP c root height false rest else rest
  else branchP c db upd root ld.l ld.r keys pos ld.ref ld.i height

/-- trie.go:162-254 `update` at position `pos`, with the batch `ref` of the caller and the index in it. -/
def updateP (c : Cfg) (db : Bytes → Option Bytes) : Nat → Bytes → KVs → List Bool → List Bool → Nat → Prog
  | _, _, [], _, _, _ => .ret (some ⟨[], false⟩)
  | 0, root, (_, none) :: _, _, _, _ => delP c root 0 false (.ret (some ⟨[], true⟩))
  | 0, root, (k, some v) :: _, _, _, _ =>
    let h := c.H (k ++ v ++ [byteOf 0]) ++ [1]
    storeP c (((nilBatch.set 2 (v ++ [2])).set 1 (k ++ [2])).set 0 [1]) h root 0 (.ret (some ⟨h, false⟩))
  | h + 1, root, kv :: kvs, pos, ref, ix =>
    kidsP c db root (h + 1) pos ref ix fun ok =>
      match ok with
      | none => .ret none
      | some ld => afterP c db (updateP c db h) root (kv :: kvs) pos (h + 1) ld

/-! ## Goroutines -/

/-- A program that is being run by goroutines: one goroutine; `updateParallel` after it began its left side (in a worker, or itself), and after it also began its right side.
The flags say whether the side has a slot of the semaphore. -/
inductive Run where
  | code (p : Prog)
  | left (nl nr : Nat) (w : Bool) (l : Run) (q : Prog) (k : R → R → Prog)
  | both (nl nr : Nat) (wl : Bool) (l : Run) (wr : Bool) (r : Run) (k : R → R → Prog)

/-- The size of the semaphore and `minParallelUpdateKeys` (trie.go:13-24, 73). -/
structure Limits where
  cap : Nat
  min : Nat

/-- Everything that changes during an `Update`: the goroutines, the number of slots of the semaphore in use (trie.go:336-340), the number of workers that have sent their result and whose parent
has gone on, but have not yet released their slot (trie.go:340-343), the memory. -/
structure State where
  run : Run
  used : Nat
  ending : Nat
  mem : Mem

/-- trie.go:333-336, 347-349: a worker is started iff there are enough keys and a slot is free. -/
def Limits.spawns (lim : Limits) (n used : Nat) : Bool := lim.min ≤ n && used < lim.cap

def Bool.count (b : Bool) : Nat := if b then 1 else 0

/-- One step of one goroutine. -/
inductive Step (lim : Limits) : State → State → Prop where
  /-- a read -/
  | get (l : Loc) (k : Cell → Prog) (n e : Nat) (σ : Mem) : Step lim ⟨.code (.get l k), n, e, σ⟩ ⟨.code (k (σ l)), n, e, σ⟩
  /-- a write -/
  | put (l : Loc) (v : Cell) (k : Prog) (n e : Nat) (σ : Mem) : Step lim ⟨.code (.put l v k), n, e, σ⟩ ⟨.code k, n, e, σ.set l v⟩
  /-- trie.go:300-302: the left side, by a worker or by the caller -/
  | first (nl nr : Nat) (p q : Prog) (k : R → R → Prog) (n e : Nat) (σ : Mem) :
      Step lim ⟨.code (.par nl nr p q k), n, e, σ⟩ ⟨.left nl nr (lim.spawns nl n) (.code p) q k, n + Bool.count (lim.spawns nl n), e, σ⟩
  /-- trie.go:303-305: the right side, after a worker was started for the left side -/
  | second (nl nr : Nat) (l : Run) (q : Prog) (k : R → R → Prog) (n e : Nat) (σ : Mem) :
      Step lim ⟨.left nl nr true l q k, n, e, σ⟩ ⟨.both nl nr true l (lim.spawns nr n) (.code q) k, n + Bool.count (lim.spawns nr n), e, σ⟩
  /-- trie.go:303-305: the right side, after the left side has ended -/
  | second' (nl nr : Nat) (w : Bool) (a : R) (q : Prog) (k : R → R → Prog) (n e : Nat) (σ : Mem) :
      Step lim ⟨.left nl nr w (.code (.ret a)) q k, n, e, σ⟩ ⟨.both nl nr w (.code (.ret a)) (lim.spawns nr n) (.code q) k, n + Bool.count (lim.spawns nr n), e, σ⟩
  /-- trie.go:306-307: both results are there -/
  | join (nl nr : Nat) (wl wr : Bool) (a b : R) (k : R → R → Prog) (n e : Nat) (σ : Mem) :
      Step lim ⟨.both nl nr wl (.code (.ret a)) wr (.code (.ret b)) k, n, e, σ⟩ ⟨.code (k a b), n, e + Bool.count wl + Bool.count wr, σ⟩
  /-- trie.go:340-343: a worker releases its slot before its parent goes on -/
  | freeLeft1 (nl nr : Nat) (a : R) (q : Prog) (k : R → R → Prog) (n e : Nat) (σ : Mem) :
      Step lim ⟨.left nl nr true (.code (.ret a)) q k, n + 1, e, σ⟩ ⟨.left nl nr false (.code (.ret a)) q k, n, e, σ⟩
  | freeLeft (nl nr : Nat) (a : R) (wr : Bool) (r : Run) (k : R → R → Prog) (n e : Nat) (σ : Mem) :
      Step lim ⟨.both nl nr true (.code (.ret a)) wr r k, n + 1, e, σ⟩ ⟨.both nl nr false (.code (.ret a)) wr r k, n, e, σ⟩
  | freeRight (nl nr : Nat) (wl : Bool) (l : Run) (b : R) (k : R → R → Prog) (n e : Nat) (σ : Mem) :
      Step lim ⟨.both nl nr wl l true (.code (.ret b)) k, n + 1, e, σ⟩ ⟨.both nl nr wl l false (.code (.ret b)) k, n, e, σ⟩
  /-- trie.go:340-343: a worker releases its slot after its parent went on -/
  | free (r : Run) (n e : Nat) (σ : Mem) : Step lim ⟨r, n + 1, e + 1, σ⟩ ⟨r, n, e, σ⟩
  /-- a step of a goroutine of a side -/
  | inLeft1 {nl nr : Nat} {w : Bool} {q : Prog} {k : R → R → Prog} {l l' : Run} {n n' e e' : Nat} {σ σ' : Mem} :
      Step lim ⟨l, n, e, σ⟩ ⟨l', n', e', σ'⟩ → Step lim ⟨.left nl nr w l q k, n, e, σ⟩ ⟨.left nl nr w l' q k, n', e', σ'⟩
  | inLeft {nl nr : Nat} {wl wr : Bool} {k : R → R → Prog} {l l' r : Run} {n n' e e' : Nat} {σ σ' : Mem} :
      Step lim ⟨l, n, e, σ⟩ ⟨l', n', e', σ'⟩ → Step lim ⟨.both nl nr wl l wr r k, n, e, σ⟩ ⟨.both nl nr wl l' wr r k, n', e', σ'⟩
  | inRight {nl nr : Nat} {wl wr : Bool} {k : R → R → Prog} {l r r' : Run} {n n' e e' : Nat} {σ σ' : Mem} :
      Step lim ⟨r, n, e, σ⟩ ⟨r', n', e', σ'⟩ → Step lim ⟨.both nl nr wl l wr r k, n, e, σ⟩ ⟨.both nl nr wl l wr r' k, n', e', σ'⟩

/-- Any number of steps: a schedule of the goroutines. -/
inductive Steps (lim : Limits) : State → State → Prop where
  | refl (s : State) : Steps lim s s
  | tail {s t u : State} : Steps lim s t → Step lim t u → Steps lim s u

def toCell : Option Batch → Cell
  | none => .none
  | some b => .batch b

/-- The memory when `Update` begins: the caches. -/
def memOf (s : SmtStore.St) : Mem
  | .live d => toCell (s.live d)
  | .upd d => toCell (s.upd d)
  | .rem d => if d ∈ s.removed then .present else .none
  | .slot _ _ => .none

/-- trie.go:99-116 `Update` when it calls `update`; `used` and `ending` are from workers of an earlier `Update` that have not released their slots yet. -/
def start (c : Cfg) (tr : SmtStore.Trie) (kvs : KVs) (ending : Nat) : State :=
  ⟨.code (updateP c tr.st.db c.n tr.root kvs [] [] 0), ending, ending, memOf tr.st⟩

/-- trie.go:116-124: the root after `update` has returned; `none` is an error. -/
def rootAfter : R → Option Bytes
  | none => none
  | some x => some (if x.node.length ≠ 0 then x.node.take 32 else [])

/-- trie_cache.go:59-99 `commitChangesToDB`: the DB after `Commit`, from the memory after `Update`. -/
def commitMem (σ : Mem) (db : Bytes → Option Bytes) : Bytes → Option Bytes := fun d =>
  if σ (.rem d) = .present then none
  else
    match σ (.upd d) with
    | .batch b => some (Smt.serializeBatch b)
    | _ => db d

end Fpki.SmtPar
