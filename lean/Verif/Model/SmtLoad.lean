import Verif.Model.SmtStore

/-!
# Model of `pkg/mapserver/trie`: filling the live cache (`LoadCache`)

* The two goroutines of every inner node are modelled one after the other: they fill different entries of the cache, and the caller waits for the left one first.  After an error on the left the code does not wait for the right side; here it runs to its end.
* `fail` says for which digests the query to the DB returns an error.  A row that is missing is not an error (pkg/db/mysql/smt.go:32-43 returns nil and no error).
* A panic of a goroutine ends the process; `panic` stands for that.
-/
namespace Fpki.SmtStore

open Fpki.Smt (parseBatch)

/-- How `LoadCache` ends: without error, with an error, or with a panic. -/
inductive Outcome where
  | ok
  | err
  | panic
deriving DecidableEq

/-- trie_tools.go:68-75: both sides must succeed; a panic on any side ends the process. -/
def both : Outcome → Outcome → Outcome
  | .panic, _ => .panic
  | _, .panic => .panic
  | .err, _ => .err
  | .ok, o => o

/-- trie_tools.go:59-76: both children of slot `ix`; `rec` is the recursive call at the height below. -/
def loadKids (rec : Bytes → Batch → Nat → (Bytes → Option Batch) → Outcome × (Bytes → Option Batch)) (b : Batch) (ix : Nat) (live : Bytes → Option Batch) : Outcome × (Bytes → Option Batch) :=
  let l := rec (slot b (2 * ix + 1)) b (2 * ix + 1) live
  let r := rec (slot b (2 * ix + 2)) b (2 * ix + 2) l.2
  (both l.1 r.1, r.2)

/-- trie_tools.go:29-77 `loadCache`, trie_cache.go:101-113 `getValueLimit` and `getValueLockFree`: how it ends and the live cache afterwards. `root[:HashLength]` (36), `parseBatch` (41, trie.go:666) and `batch[iBatch][HashLength]` (55) panic on shorter slices. -/
def loadCache (c : Cfg) (db : Bytes → Option Bytes) (fail : Bytes → Bool) : Nat → Bytes → Batch → Nat → (Bytes → Option Batch) → Outcome × (Bytes → Option Batch)
  | height, root, batch, ix, live =>
    if height < c.lim ∨ root.length = 0 then (.ok, live)
    else if height % 4 = 0 then
      if root.length < 32 then (.panic, live)
      else if fail (root.take 32) then (.err, live)
      else
        let val := (db (root.take 32)).getD []
        if val.length < 4 then (.panic, live)
        else
          let b := parseBatch val
          let live := mapSet live (root.take 32) (some b)
          if (slot b 0).getD 0 0 = 1 then (.ok, live)
          else
            match height with
            | 0 => (.ok, live)
            | h + 1 => loadKids (loadCache c db fail h) b 0 live
    else if ix ≠ 0 ∧ (slot batch ix).length < 33 then (.panic, live)
    else if ix ≠ 0 ∧ flagOf (slot batch ix) = 1 then (.ok, live)
    else
      match height with
      | 0 => (.ok, live)
      | h + 1 => loadKids (loadCache c db fail h) batch ix live

/-- trie_tools.go:17-26 `LoadCache` (with a connected DB): the cache starts empty, and the root is set in any case. -/
def Trie.loadCache (c : Cfg) (fail : Bytes → Bool) (t : Trie) (root : Bytes) : Outcome × Trie :=
  let q := SmtStore.loadCache c t.st.db fail c.n root [] 0 (fun _ => none)
  (q.1, ⟨root, { t.st with live := q.2 }⟩)

end Fpki.SmtStore
