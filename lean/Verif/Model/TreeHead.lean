import Verif.Model.Bytes

/-!
# Model of the tree head of the responder: `pkg/mapserver/responder/responder.go`

The fields `smt` and `signedTreeHead`, the goroutine that reloads them (mapserver.go:119-141), any number of requests (`GetProof`, each in its own goroutine of the HTTP server) and the updater
that replaces the tree in the DB. Trees are numbered in the order in which their nodes were stored; `root n` is the root of tree `n`. `sign` is SignBytes with the key of the server.
Each read or write of one field is a step. Simplifications: a read of the slice `signedTreeHead` is one step; the domain name has been parsed (C57), `parts` is the number of its parts;
payloads are left out (C13); `NewTrie` does not fail (NewCacheDB returns no error); a proof can only fail if the tree is not the one whose nodes are stored.
-/
namespace Fpki.TreeHead

/-- One element of the result of GetProof: the tree in which the proof was made, the tree whose root was put into it, and the signature. -/
structure Entry where
  proofOf : Nat
  rootOf : Nat
  sig : Bytes
deriving DecidableEq, Repr

/-- responder.go:40-63, 132-143: where the goroutine that reloads is. -/
inductive Reload where
  | idle
  | loaded (v : Nat)      -- after LoadRoot and NewTrie
  | swapped               -- after `r.smt = smt`
  | signed (s : Bytes)    -- after SignBytes
deriving DecidableEq, Repr

/-- responder.go:75-125: where a request is: in no call; with that many parts left and the entries made so far, in this part not begun, after `MerkleProof`, or after reading `r.smt.Root`;
ended with all entries, or with an error. -/
inductive Req where
  | none
  | part (left : Nat) (es : List Entry)
  | proved (left : Nat) (es : List Entry) (v : Nat)
  | rooted (left : Nat) (es : List Entry) (v w : Nat)
  | done (es : List Entry)
  | failed
deriving DecidableEq, Repr

structure State where
  nodes : Nat       -- the tree whose nodes are in the DB
  db : Nat          -- the tree whose root is saved in the DB
  smt : Nat         -- r.smt
  sig : Bytes       -- r.signedTreeHead
  reload : Reload
  reqs : Nat → Req

inductive Ev where
  | nodes                             -- the updater stores the nodes of the next tree and deletes those no longer used
  | save                              -- the updater saves its root
  | load                              -- LoadRoot and NewTrie
  | loadFails                         -- LoadRoot fails
  | swap
  | sign
  | store
  | request (i parts : Nat)
  | prove (i : Nat)
  | proveFails (i : Nat)
  | readRoot (i : Nat)
  | readSig (i : Nat)
deriving DecidableEq, Repr

def State.setReq (s : State) (i : Nat) (r : Req) : State := { s with reqs := fun j => if j = i then r else s.reqs j }

/-- One step. updater.go:UpdateSMT stores the nodes (`Commit`) before the root (`SaveRoot`), see C11. -/
def exec (root : Nat → Bytes) (sign : Bytes → Option Bytes) (s : State) : Ev → Option State
  | .nodes => some { s with nodes := s.nodes + 1 }
  | .save => some { s with db := s.nodes }
  | .load => match s.reload with
    | .idle => some { s with reload := .loaded s.db }       -- responder.go:44-56
    | _ => none
  | .loadFails => match s.reload with
    | .idle => some s                                        -- responder.go:46-47
    | _ => none
  | .swap => match s.reload with
    | .loaded v => some { s with smt := v, reload := .swapped }   -- responder.go:59
    | _ => none
  | .sign => match s.reload with
    | .swapped => match sign (root s.smt) with               -- responder.go:134
      | some x => some { s with reload := .signed x }
      | none => some { s with reload := .idle }              -- responder.go:135-137
    | _ => none
  | .store => match s.reload with
    | .signed x => some { s with sig := x, reload := .idle } -- responder.go:140
    | _ => none
  | .request i parts => match s.reqs i with
    | .none => some (s.setReq i (if parts = 0 then .done [] else .part parts []))
    | _ => none
  | .prove i => match s.reqs i with
    | .part l es => some (s.setReq i (.proved l es s.smt))   -- responder.go:78
    | _ => none
  | .proveFails i => match s.reqs i with
    | .part _ _ => if s.smt = s.nodes then none else some (s.setReq i .failed)   -- responder.go:79-82
    | _ => none
  | .readRoot i => match s.reqs i with
    | .proved l es v => some (s.setReq i (.rooted l es v s.smt))   -- responder.go:117
    | _ => none
  | .readSig i => match s.reqs i with
    | .rooted l es v w =>                                     -- responder.go:121, 128-130
      some (s.setReq i (if l ≤ 1 then .done (es ++ [⟨v, w, s.sig⟩]) else .part (l - 1) (es ++ [⟨v, w, s.sig⟩])))
    | _ => none

/-- A sequence of steps. -/
def run (root : Nat → Bytes) (sign : Bytes → Option Bytes) : State → List Ev → Option State
  | s, [] => some s
  | s, e :: es => match exec root sign s e with
    | some t => run root sign t es
    | none => none

/-- responder.go:22-38 `NewMapResponder`: the first load, before the responder is used; `none` if signing fails (then there is no responder). -/
def start (root : Nat → Bytes) (sign : Bytes → Option Bytes) (v : Nat) : Option State :=
  (sign (root v)).map fun x => { nodes := v, db := v, smt := v, sig := x, reload := .idle, reqs := fun _ => .none }

/-- mapserver.go:233-248 `apiGetProof`: the status and the answers sent. (Encoding them as JSON does not fail: C13.) -/
def apiGetProof : Req → Option (Nat × List Entry)
  | .done es => some (200, es)
  | .failed => some (400, [])
  | _ => none

end Fpki.TreeHead
