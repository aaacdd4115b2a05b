import Verif.Model.Bytes

/-!
# Model of `pkg/mapserver/trie`: the tree algorithm

A trie is an explicit tree: `leaf` is a shortcut node.  This file models what `update`, `get` and
`merkleProof` compute on the tree; how nodes are grouped in batches of 31 slots, cached and stored
in the DB is modelled in `Verif/Model/SmtStore.lean`.

* `n` is `TrieHeight` (256 for SHA-256); a subtree at height `h` branches on bit `n - h`.
* The value `none` in an update stands for `DefaultLeaf` (`[0]`), which is never equal to a 32-byte
  value.
* `updateParallel` runs its two branches on disjoint slots; they are modelled sequentially.
* Context and DB errors are not modelled here.
-/
namespace Fpki.Smt

abbrev Key := Bytes
abbrev Val := Bytes

/-- Tree content; the height of a node is given by its position. -/
inductive Node where
  | empty
  | leaf (k : Key) (v : Val)
  | node (l r : Node)
deriving Repr, DecidableEq, Inhabited

def Node.isLeaf : Node → Bool
  | .leaf _ _ => true
  | _ => false

abbrev KVs := List (Key × Option Val)

/-- The loop in the last case of trie.go:461-506 `maybeAddShortcutToKV` (lines 476-502).
`pre` are the pairs already visited, `acc` is the contents of `newKeys`/`newValues`. -/
def addLoop (sk : Key) (sv : Val) (pre : KVs) (higher : Bool) (acc : KVs) : KVs → KVs
  | [] => acc
  | (k, v) :: rest =>
    if sk = k then
      if v.isSome then pre ++ (k, v) :: rest            -- line 479-481: return keys, values
      else addLoop sk sv (pre ++ [(k, v)]) higher (acc ++ pre ++ rest) rest   -- lines 482-487
    else if !higher && bytesLt k sk then addLoop sk sv (pre ++ [(k, v)]) true acc rest
    else if higher && bytesLt sk k then acc ++ pre ++ (sk, some sv) :: (k, v) :: rest
    else addLoop sk sv (pre ++ [(k, v)]) higher acc rest

/-- trie.go:461-506 `maybeAddShortcutToKV`. (Only called with a non-empty list.) -/
def maybeAdd (sk : Key) (sv : Val) (kvs : KVs) : KVs :=
  match kvs, kvs.getLast? with
  | (k0, _) :: _, some (kl, _) =>
    if bytesLt sk k0 then (sk, some sv) :: kvs
    else if bytesLt kl sk then kvs ++ [(sk, some sv)]
    else addLoop sk sv [] false [] kvs
  | _, _ => kvs

/-- trie.go:383-390 `splitKeys` on bit `i`. -/
def splitKeys (i : Nat) (kvs : KVs) : KVs × KVs :=
  (kvs.takeWhile (fun p => !bitIsSet p.1 i), kvs.dropWhile (fun p => !bitIsSet p.1 i))

/-- trie.go:393-419 `maybeMoveUpShortcut` and 421-457 `moveUpShortcut` when `deleted` is set,
otherwise (or if nothing moves) trie.go:624-642 `interiorHash`. Result and `deleted` flag.
`node empty empty` would be a panic in `interiorHash`; theorem `C66_no_panic` shows it is not
reached. -/
def join (deleted : Bool) (l r : Node) : Node × Bool :=
  if deleted then
    match l, r with
    | .empty, .empty => (.empty, true)
    | .empty, .leaf k v => (.leaf k v, true)
    | .leaf k v, .empty => (.leaf k v, true)
    | l, r => (.node l r, false)
  else (.node l r, false)

/-- trie.go:211-254 (second part of `update`) with 257-274 `updateRight`, 277-294 `updateLeft` and
297-327 `updateParallel`; `upd` is the recursive call at the height below, `i` the bit to split
on, `l` and `r` the children. -/
def branch (upd : Node → KVs → Node × Bool) (i : Nat) (l r : Node) (keys : KVs) : Node × Bool :=
  match l, r, keys with
  | .empty, .empty, [(_, none)] => (.empty, true)
  | .empty, .empty, [(k, some v)] => (.leaf k v, false)
  | _, _, _ =>
    let s := splitKeys i keys
    if s.1.isEmpty && !s.2.isEmpty then
      let q := upd r keys
      join q.2 l q.1
    else if !s.1.isEmpty && s.2.isEmpty then
      let q := upd l keys
      join q.2 q.1 r
    else
      let ql := upd l s.1
      let qr := upd r s.2
      join (ql.2 || qr.2) ql.1 qr.1

/-- trie.go:162-254 `update`. Structural recursion on the height. -/
def update (n : Nat) : Nat → Node → KVs → Node × Bool
  | _, _, [] => (.empty, false)
  | 0, _, (_, none) :: _ => (.empty, true)
  | 0, _, (k, some v) :: _ => (.leaf k v, false)
  | h + 1, t, kv :: kvs =>
    match t with
    | .leaf k v =>
      -- the shortcut is added to the keys and the subtree considered empty (lines 195-210)
      let keys := maybeAdd k v (kv :: kvs)
      if keys.isEmpty then (.empty, true)
      else branch (update n h) (n - (h + 1)) .empty .empty keys
    | .empty => branch (update n h) (n - (h + 1)) .empty .empty (kv :: kvs)
    | .node l r => branch (update n h) (n - (h + 1)) l r (kv :: kvs)

/-- trie.go:99-124 `Update` for equally long `keys` and `values` (pairs here): the new tree. An empty
batch leaves the trie alone (trie.go:103-105). -/
def updateRoot (n : Nat) (t : Node) (kvs : KVs) : Node :=
  if kvs.isEmpty then t else (update n n t kvs).1

/-- trie_tools.go:88-109 `get`; `i` is the bit to branch on (`TrieHeight - height`). -/
def get (i : Nat) : Node → Key → Option Val
  | .empty, _ => none
  | .leaf k v, key => if k = key then some v else none
  | .node l r, key => if bitIsSet key i then get (i + 1) r key else get (i + 1) l key

/-! ## Hashing -/

/-- util.go:17 `DefaultLeaf` -/
def defaultLeaf : Bytes := [0]

/-- `byte(height)` -/
def byteOf (h : Nat) : Byte := UInt8.ofNat h

/-- Digest stored for a subtree at height `h`: trie.go:589-606 `leafHash`, 624-642 `interiorHash`;
an empty side is hashed as `DefaultLeaf`. `H` is the hash of the concatenation of its arguments
(common.SHA256Hash). -/
def digest (H : Bytes → Bytes) : Nat → Node → Bytes
  | _, .empty => defaultLeaf
  | h, .leaf k v => H (k ++ v ++ [byteOf h])
  | h, .node l r => H (digest H (h - 1) l ++ digest H (h - 1) r)

/-- The root of a trie: nil for the empty trie (trie.go:118-123). -/
def rootHash (H : Bytes → Bytes) (n : Nat) (t : Node) : Option Bytes :=
  match t with
  | .empty => none
  | t => some (digest H n t)

/-! ## Proofs -/

/-- Result of trie_merkle_proof.go:80-128 `merkleProof`: audit path (deepest sibling first),
inclusion flag, key and value of the leaf found (the key is nil when included). -/
structure Proof where
  path : List Bytes
  included : Bool
  key : Option Key
  value : Option Val
deriving Repr, DecidableEq

/-- trie_merkle_proof.go:80-128 `merkleProof` at height `h` of a trie of height `n`. -/
def merkleProof (H : Bytes → Bytes) (n : Nat) : Nat → Node → Key → Proof
  | _, .empty, _ => ⟨[], false, none, none⟩
  | _, .leaf k v, key => if k = key then ⟨[], true, none, some v⟩ else ⟨[], false, some k, some v⟩
  | h, .node l r, key =>
    if bitIsSet key (n - h) then
      let p := merkleProof H n (h - 1) r key
      { p with path := p.path ++ [digest H (h - 1) l] }
    else
      let p := merkleProof H n (h - 1) l key
      { p with path := p.path ++ [digest H (h - 1) r] }

/-- trie_merkle_proof.go:137-145 `verifyInclusion` with `keyIndex = i`. (`ap[len(ap)-i-1]`.) -/
def verifyPath (H : Bytes → Bytes) (key : Key) : Nat → List Bytes → Bytes → Bytes
  | _, [], leafHash => leafHash
  | i, s :: rest, leafHash =>
    if bitIsSet key i then H (s ++ verifyPath H key (i + 1) rest leafHash)
    else H (verifyPath H key (i + 1) rest leafHash ++ s)

/-- `byte(256 - len(ap))`: wraps around modulo 256 like the Go conversion of an int. -/
def heightByte (n len : Nat) : Byte := UInt8.ofInt ((n : Int) - (len : Int))

/-- trie_merkle_proof.go:131-134 `VerifyInclusion`; `n` is the constant 256. The audit path is
stored deepest first and read from its end. (A path longer than the key makes the Go code panic in
`bitIsSet`; the model reads 0 bits there, so it accepts at least what the code accepts.) -/
def verifyInclusion (H : Bytes → Bytes) (n : Nat) (root : Bytes) (ap : List Bytes) (key : Key)
    (value : Val) : Bool :=
  root == verifyPath H key 0 ap.reverse (H (key ++ value ++ [heightByte n ap.length]))

/-- trie_merkle_proof.go:165-171: the bits of both keys agree below the path length. -/
def sameBits (a b : Bytes) (m : Nat) : Bool := (List.range m).all (fun i => bitIsSet a i == bitIsSet b i)

/-- trie_merkle_proof.go:149-174 `VerifyNonInclusion`; `root = none` is nil. -/
def verifyNonInclusion (H : Bytes → Bytes) (n : Nat) (root : Option Bytes) (ap : List Bytes)
    (key : Key) (value : Val) (proofKey : Bytes) : Bool :=
  match root with
  | none => true
  | some root =>
    if proofKey.isEmpty then root == verifyPath H key 0 ap.reverse defaultLeaf
    else if !verifyInclusion H n root ap proofKey value then false
    else sameBits key proofKey ap.length

end Fpki.Smt
