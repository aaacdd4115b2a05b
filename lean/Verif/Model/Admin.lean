/-!
# The admin client of the policy log (pkg/policylog/client/adminclient.go)

Trees are created on the Trillian log server; the client writes each to a file. The log server is a list of trees, its answers and the failures of the file
system are events. Durations do not overflow (below 2^33 seconds). The JSON text of a tree is identified with the tree, and the name of its file with its ID
(`strconv.FormatInt` is injective).
-/
namespace Fpki.Admin

/-- adminconfig.go `AdminClientConfig`, the fields that are about trees, in seconds; `MaxRootDuration`: "Interval after which a new signed root is produced
despite no submissions; zero means never". Connection settings are left out; HashStrategy is never read. -/
structure Config where
  rpcMaxWait : Int
  displayName : String
  description : String
  maxRootDuration : Int

/-- The parts of `trillian.Tree` that the request sets (`TreeState_ACTIVE`, `TreeType_LOG`), and the ID, which the log server chooses. -/
structure Tree where
  id : Int
  active : Bool
  log : Bool
  displayName : String
  description : String
  maxRootDuration : Int
deriving DecidableEq

/-- The trees on the log server, and the files in `trees_config`: for an ID, nothing, or the tree in it (`some none`: something else, or nothing readable). -/
structure World where
  trees : List Tree
  files : Int → Option (Option Tree)

/-- adminclient.go:80-88 `generateCreateTreeReq`, as the tree that the log server makes of it, with its ID. -/
def request (c : Config) (id : Int) : Tree :=
  { id, active := true, log := true, displayName := c.displayName, description := c.description, maxRootDuration := c.rpcMaxWait }

/-- What happens to a call besides its own code. -/
structure Env where
  /-- the ID that the log server chooses; none if it refuses, or cannot be reached in time -/
  created : Option Int
  /-- `InitLog` of the Trillian client works -/
  inits : Bool
  /-- `WriteFile` works; or fails and leaves no file or an incomplete one -/
  writes : Bool
  incomplete : Bool

/-- adminclient.go:91-102 `writeTreeToFile` -/
def writeTreeToFile (w : World) (t : Tree) (e : Env) : World × Bool :=
  if e.writes then ({ w with files := fun i => if i = t.id then some (some t) else w.files i }, true)
  else (if e.incomplete then { w with files := fun i => if i = t.id then some none else w.files i } else w, false)

/-- adminclient.go:56-77 `CreateNewTree`, with `CreateAndInitTree` of the Trillian client: it creates the tree, then initialises it. With a waiting time of zero
or less the context is over before the call. -/
def createNewTree (c : Config) (w : World) (e : Env) : World × Option Tree :=
  match e.created with
  | none => (w, none)
  | some id =>
    if c.rpcMaxWait ≤ 0 then (w, none)
    else
      let t := request c id
      let w := { w with trees := w.trees ++ [t] }
      if e.inits then
        let (w, ok) := writeTreeToFile w t e
        if ok then (w, some t) else (w, none)
      else (w, none)

/-- Calls one after the other, with the configurations of their clients (which have the same log server and the same output path): the world and the results. -/
def calls : World → List (Config × Env) → World × List (Option Tree)
  | w, [] => (w, [])
  | w, (c, e) :: l =>
    let (w, r) := createNewTree c w e
    let (w, rs) := calls w l
    (w, r :: rs)

end Fpki.Admin
