import Verif.Model.PayloadApi
import Verif.Model.Domain
/-!
# Model of the configuration of the DB connection
`pkg/db/conf.go`, `pkg/db/mysql/conf.go`, `pkg/db/mysql/init.go` `Connect`, `parseDSN`, `connect`; the configurations that `cmd/ingest` and the sample
configuration of `cmd/mapserver` use.

The text of the DSN goes through `net/url` (`Parse`, `Query`, `Encode`, `String`) and then to the MySQL driver (`ParseDSN`, go-sql-driver v1.10.0). Both are modelled
here (part of the environment, not in /repo) as far as this code needs: see `Parsed.other`. What the driver does with the parameters, and the server, are not
modelled: the parameters are the pairs that reach the driver.
-/
namespace Fpki.DbConf
open Fpki.Domain (asc)
open Fpki.PayloadApi (hexVal join)

/-! ## Go maps and strings -/

/-- `map[string]string`: keys are unique. -/
abbrev Map := List (Bytes × Bytes)

/-- `m[k]` with `ok` -/
def Map.get (m : Map) (k : Bytes) : Option Bytes := (m.find? fun p => p.1 == k).map Prod.snd

/-- `m[k]`, the empty string if absent -/
def Map.val (m : Map) (k : Bytes) : Bytes := (m.get k).getD []

/-- `delete(m, k)` -/
def Map.del (m : Map) (k : Bytes) : Map := m.filter fun p => !(p.1 == k)

/-- `m[k] = v` -/
def Map.put (m : Map) (k v : Bytes) : Map := m.del k ++ [(k, v)]

/-- `strings.Cut(s, c)`: the part before the first `c` (all if there is none), and the rest after it. -/
def cut (c : Byte) (s : Bytes) : Bytes × Option Bytes :=
  (s.takeWhile (· != c), match s.dropWhile (· != c) with | [] => none | _ :: r => some r)

/-- Before and after the last `c`. -/
def cutLast (c : Byte) (s : Bytes) : Option (Bytes × Bytes) :=
  match cut c s.reverse with
  | (_, none) => none
  | (a, some b) => some (b.reverse, a.reverse)

/-! ## net/url -/

/-- `shouldEscape`: characters never escaped. -/
def unreserved (c : Byte) : Bool :=
  (97 ≤ c.toNat && c.toNat ≤ 122) || (65 ≤ c.toNat && c.toNat ≤ 90) || (48 ≤ c.toNat && c.toNat ≤ 57) || (asc "-_.~").contains c

/-- upper case -/
def hexUp (n : Nat) : Byte := UInt8.ofNat (if n < 10 then 48 + n else 55 + n)

def pct (c : Byte) : Bytes := [37, hexUp (c.toNat / 16), hexUp (c.toNat % 16)]

/-- `url.QueryEscape` -/
def queryEscape (s : Bytes) : Bytes := s.flatMap fun c => if unreserved c then [c] else if c = 32 then [43] else pct c

/-- `unescape`; `plus`: `+` is a space (query). `none` is an error. -/
def unescape (plus : Bool) : Bytes → Option Bytes
  | [] => some []
  | c :: r =>
    if c = 37 then
      match r with
      | a :: b :: r' =>
        match hexVal a, hexVal b, unescape plus r' with
        | some x, some y, some t => some (UInt8.ofNat (x * 16 + y) :: t)
        | _, _, _ => none
      | _ => none
    else (unescape plus r).map fun t => (if plus && c == 43 then 32 else c) :: t

/-- `escape(s, encodePath)` -/
def pathEscape (s : Bytes) : Bytes := s.flatMap fun c => if unreserved c || (asc "$&+,/:;=@").contains c then [c] else pct c

/-- `validEncoded(s, encodePath)` -/
def validEncoded (s : Bytes) : Bool := s.all fun c => unreserved c || (asc "!$&'()*+,/;=:@[]%").contains c

structure Url where
  scheme : Bytes
  opaque_ : Bytes
  path : Bytes
  rawPath : Bytes
  rawQuery : Bytes
deriving Repr, DecidableEq

/-- `other`: the forms that are not modelled: a fragment (`#`), and an authority (a path that starts with `//`). -/
inductive Parsed where
  | ok (u : Url)
  | error
  | other
deriving Repr, DecidableEq

/-- `getScheme`: scheme and rest; `none`: no scheme; the error case (`:` at the start) is `some ([], _)`. -/
def getScheme (s : Bytes) : Option (Bytes × Bytes) :=
  let isAlpha := fun (c : Byte) => (97 ≤ c.toNat && c.toNat ≤ 122) || (65 ≤ c.toNat && c.toNat ≤ 90)
  let isOther := fun (c : Byte) => (48 ≤ c.toNat && c.toNat ≤ 57) || (asc "+-.").contains c
  match s with
  | [] => none
  | c0 :: _ =>
    if isOther c0 then none
    else match s.dropWhile (fun c => isAlpha c || isOther c) with
      | [] => none
      | c :: r => if c = 58 then some (s.takeWhile (fun c => isAlpha c || isOther c), r) else none

def toLower (c : Byte) : Byte := if 65 ≤ c.toNat && c.toNat ≤ 90 then c + 32 else c

/-- `setPath` -/
def setPath (scheme path query : Bytes) : Parsed :=
  match unescape false path with
  | none => .error
  | some p => .ok ⟨scheme, [], p, if pathEscape p = path then [] else path, query⟩

/-- The part of `parse` after the scheme and the query. -/
def parseRest (scheme rest query : Bytes) : Parsed :=
  if rest.head? = some 47 then
    if rest[1]? = some 47 then .other else setPath scheme rest query
  else if scheme ≠ [] then .ok ⟨scheme, rest, [], [], query⟩
  else if (cut 47 rest).1.contains 58 then .error
  else setPath scheme rest query

/-- `url.Parse`. (`ForceQuery` is not modelled: `connect` always sets a query that is not empty or the flag has no effect on the driver.) -/
def urlParse (s : Bytes) : Parsed :=
  if s.contains 35 then .other
  else if s.any (fun c => c.toNat < 32 || c.toNat == 127) then .error
  else match getScheme s with
    | some ([], _) => .error
    | some (sch, rest) => parseRest (sch.map toLower) (cut 63 rest).1 ((cut 63 rest).2.getD [])
    | none => parseRest [] (cut 63 s).1 ((cut 63 s).2.getD [])

/-- `EscapedPath` -/
def Url.escapedPath (u : Url) : Bytes :=
  if u.rawPath ≠ [] && validEncoded u.rawPath && unescape false u.rawPath == some u.path then u.rawPath
  else if u.path = [42] then [42] else pathEscape u.path

/-- `URL.String` -/
def Url.string (u : Url) : Bytes :=
  (if u.scheme = [] then [] else u.scheme ++ [58]) ++
  (if u.opaque_ ≠ [] then u.opaque_
   else (if u.scheme = [] && (cut 47 u.escapedPath).1.contains 58 then [46, 47] else []) ++ u.escapedPath) ++
  (if u.rawQuery = [] then [] else 63 :: u.rawQuery)

/-- split at `c` -/
def split (c : Byte) (s : Bytes) : List Bytes :=
  s.foldr (fun x acc => if x = c then [] :: acc else match acc with | [] => [[x]] | l :: ls => (x :: l) :: ls) [[]]

/-- `URL.Query`: the pairs of the query; malformed ones are dropped. -/
def parseQuery (q : Bytes) : List (Bytes × Bytes) :=
  (split 38 q).filterMap fun p =>
    if p.contains 59 || p.isEmpty then none
    else match unescape true (cut 61 p).1, unescape true ((cut 61 p).2.getD []) with
      | some k, some v => some (k, v)
      | _, _ => none

/-- insert into a list sorted by key, after equal keys -/
def insertPair (p : Bytes × Bytes) : List (Bytes × Bytes) → List (Bytes × Bytes)
  | [] => [p]
  | q :: r => if bytesLt p.1 q.1 then p :: q :: r else q :: insertPair p r

/-- `Values.Encode`: sorted by key; the values of a key in the order they were added. -/
def encode (ps : List (Bytes × Bytes)) : Bytes :=
  join [38] ((ps.foldl (fun acc p => insertPair p acc) []).map fun p => queryEscape p.1 ++ [61] ++ queryEscape p.2)

/-! ## The driver -/

/-- What a connection is made to. -/
structure Target where
  user : Bytes
  password : Bytes
  net : Bytes
  addr : Bytes
  dbName : Bytes
  params : List (Bytes × Bytes)
deriving Repr, DecidableEq

/-- driver `parseDSNParams`: values of system variables are unescaped, names are not. -/
def driverParams (q : Bytes) : Option (List (Bytes × Bytes)) :=
  ((split 38 q).filter fun p => p.contains 61).mapM fun p => (unescape true ((cut 61 p).2.getD [])).map fun v => ((cut 61 p).1, v)

/-- driver `[protocol[(address)]]`: text between the last `@` and the last `/`. -/
def driverAddr (s : Bytes) : Option (Bytes × Bytes) :=
  match cut 40 s with
  | (net, none) => some (net, [])
  | (net, some a) => if a.getLast? = some 41 then some (net, a.dropLast) else none

/-- driver `normalize`: default network and address. (TLS and the errors for an unknown network: not modelled.) -/
def normalize (t : Target) : Target :=
  let net := if t.net = [] then asc "tcp" else t.net
  let addr := if t.addr = [] then (if net = asc "tcp" then asc "127.0.0.1:3306" else if net = asc "unix" then asc "/tmp/mysql.sock" else []) else t.addr
  { t with net := net, addr := if net = asc "tcp" && !addr.contains 58 then addr ++ asc ":3306" else addr }

/-- driver `ParseDSN` (go-sql-driver/mysql dsn.go); `none` is an error. -/
def driverParse (dsn : Bytes) : Option Target :=
  match cutLast 47 dsn with
  | none => none
  | some (left, right) =>
    let up := match cutLast 64 left with | some (u, a) => ((cut 58 u).1, (cut 58 u).2.getD [], a) | none => ([], [], left)
    match driverAddr up.2.2, unescape false (cut 63 right).1, driverParams ((cut 63 right).2.getD []) with
    | some (net, addr), some db, some ps => some (normalize ⟨up.1, up.2.1, net, addr, db, ps⟩)
    | _, _, _ => none

/-! ## The code -/

/-- db/conf.go:6-11 (`CheckSchema` is not modelled) -/
structure Config where
  dsn : Bytes
  dbName : Bytes
  values : Map
deriving Repr, DecidableEq

/-- db/conf.go:3; mysql/conf.go:9-15 -/
def keyDBName : Bytes := asc "DBNAME"
def keyUser : Bytes := asc "MYSQL_USER"
def keyPassword : Bytes := asc "MYSQL_PASSWORD"
def keyHost : Bytes := asc "MYSQL_HOST"
def keyPort : Bytes := asc "MYSQL_PORT"
def keyLocalSocket : Bytes := asc "MYSQL_LOCALSOCKET"

/-- The modifiers. -/
inductive Mod where
  | withDB (name : Bytes)
  | withDefaults
  | withEnvironment
  | withUser (user : Bytes)
  | withLocalSocket (path : Bytes)
deriving Repr, DecidableEq

/-- conf.go:23-28 -/
def envDefaults : Map := [(keyUser, asc "root"), (keyPassword, []), (keyHost, asc "127.0.0.1"), (keyPort, [])]

/-- conf.go:66-78 -/
def defaults : Map :=
  envDefaults ++ [(asc "interpolateParams", asc "true"), (asc "collation", asc "binary"), (asc "maxAllowedPacket", asc "1073741824"),
    (asc "parseTime", asc "true"), (asc "transaction_isolation", asc "'READ-UNCOMMITTED'"), (asc "autocommit", asc "true")]

/-- conf.go:21-37 `WithEnvironment`, 41-46 `WithUser`, 51-56 `WithLocalSocket`, 58-84 `WithDefaults`; db/conf.go:27-32 `WithDB`. The environment: `env`. -/
def Mod.apply (env : Bytes → Option Bytes) (c : Config) : Mod → Config
  | .withDB n => { c with values := c.values.put keyDBName n }
  | .withDefaults => { c with values := defaults.foldl (fun m p => m.put p.1 p.2) c.values }
  | .withEnvironment => { c with values := envDefaults.foldl (fun m p => m.put p.1 ((env p.1).getD p.2)) c.values }
  | .withUser u => { c with values := c.values.put keyUser u }
  | .withLocalSocket p => { c with values := c.values.put keyLocalSocket p }

/-- db/conf.go:15-25 -/
def newConfig (env : Bytes → Option Bytes) (mods : List Mod) : Config :=
  mods.foldl (fun c m => m.apply env c) ⟨[], [], [(keyDBName, asc "fpki")]⟩

/-- init.go:54-69: the text. -/
def dsnText (val : Map) : Bytes :=
  match val.get keyLocalSocket with
  | some path => val.val keyUser ++ asc "@unix(" ++ path ++ asc ")/" ++ val.val keyDBName
  | none =>
    val.val keyUser ++ (if val.val keyPassword ≠ [] then [58] ++ val.val keyPassword else []) ++ asc "@tcp(" ++ val.val keyHost ++
      (if val.val keyPort ≠ [] then [58] ++ val.val keyPort else []) ++ asc ")/" ++ val.val keyDBName

/-- init.go:54-80 `parseDSN` -/
def parseDSN (val : Map) : Bytes × Map :=
  (dsnText val, ((((val.del keyUser).del keyPassword).del keyHost).del keyPort).del keyLocalSocket)

/-- init.go:83-94 `connect`: what the driver is given. -/
def dsnString (c : Config) : Parsed × Bytes :=
  match urlParse c.dsn with
  | .ok u => (.ok u, { u with rawQuery := encode (parseQuery u.rawQuery ++ c.values) }.string)
  | r => (r, [])

inductive Result where
  | connected (t : Target)
  | error
  | other
deriving Repr, DecidableEq

def Result.ofOption : Option Target → Result
  | some t => .connected t
  | none => .error

/-- init.go:14-51 `Connect`: the configuration is changed in place. (`checkSchema`, limits of the pool: not modelled.) -/
def connect (c : Config) : Config × Result :=
  let c' : Config := if c.dsn = [] then ⟨(parseDSN c.values).1, (parseDSN c.values).2.val keyDBName, (parseDSN c.values).2.del keyDBName⟩ else c
  (c', match dsnString c' with
    | (.ok _, s) => .ofOption (driverParse s)
    | (.error, _) => .error
    | (.other, _) => .other)

/-- cmd/ingest/main.go:76-81 -/
def ingestMods (dbName : Bytes) : List Mod :=
  [.withDB dbName, .withDefaults, .withEnvironment, .withLocalSocket (asc "/var/run/mysqld/mysqld.sock")]

/-- cmd/mapserver/main.go:135-139 (the sample configuration; the configuration file has these values) -/
def mapserverMods : List Mod := [.withDefaults, .withEnvironment, .withLocalSocket (asc "/var/run/mysqld/mysqld.sock")]

end Fpki.DbConf
