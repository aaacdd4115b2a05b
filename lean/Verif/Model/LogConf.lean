import Verif.Model.Config
import Verif.Model.Rows

/-!
# Model of the configuration files of the policy log

`pkg/policylog/server/logserver/config.go`, `server/logsigner/config.go`, `client/adminconfig.go`, `client/logconfig.go`: four structs of numbers, booleans and strings, every field
with `omitempty`, and for each a function that saves it and one that reads it. The texts of `encoding/json` are modelled as in `Config`. Not modelled: the field `QuotaIncreaseFactor` of the log signer
(a float64), and what is left in the struct when reading gives an error.
-/
namespace Fpki.LogConf

open Fpki.Json Fpki.Config
open Fpki.Domain (asc)

/-- The types of the fields: `int` and `int64`, `bool`, `string`. -/
inductive Kind
  | int | bool | str
deriving DecidableEq, Repr

/-- The value of a field. -/
inductive Value
  | int (i : Int)
  | bool (b : Bool)
  | str (s : Bytes)
deriving DecidableEq, Repr

/-- The zero value of a type. -/
def Kind.zero : Kind → Value
  | .int => .int 0
  | .bool => .bool false
  | .str => .str []

/-- A struct: the names and types of its fields. -/
abbrev Fields := List (Bytes × Kind)

/-- encode.go `isEmptyValue` -/
def Value.empty : Value → Bool
  | .int i => i == 0
  | .bool b => !b
  | .str s => s.isEmpty

/-- encode.go `intEncoder`, `boolEncoder`, `stringEncoder` -/
def Value.enc : Value → J
  | .int i => .num (intText i)
  | .bool b => .bool b
  | .str s => .str s

/-- encode.go `structEncoder.encode`, all fields with `omitempty`. -/
def encFields : Fields → List Value → List (Bytes × J)
  | (n, _) :: t, v :: c => if v.empty then encFields t c else (n, v.enc) :: encFields t c
  | _, _ => []

/-- decode.go `literalStore`: null changes nothing; another type is an error. -/
def dec : Kind → Value → J → Option Value
  | _, old, .null => some old
  | .int, _, .num lit => (Rows.parseInt64 lit).map .int
  | .bool, _, .bool b => some (.bool b)
  | .str, _, .str s => some (.str s)
  | _, _, _ => none

/-- decode.go `object`: one field. -/
def setField (t : Fields) (i : Nat) (j : J) (c : List Value) : Option (List Value) :=
  match t[i]?, c[i]? with
  | some p, some old => (dec p.2 old j).map (c.set i ·)
  | _, _ => none

/-- logserver/config.go:43-50 `SaveLogConfigToFile`, logsigner/config.go:62-74 `SaveLogSignerConfigToFile`, adminconfig.go:33-40 `SaveAdminClientConfigToFile`, logconfig.go:25-32
`SaveLogClientConfigToFile`: the text that is written. (`json.Marshal` gives no error for these types.) -/
def save (t : Fields) (c : List Value) : Bytes := render (.obj (encFields t c))

/-- logserver/config.go:53-64 `ReadLogConfigFromFile`, logsigner/config.go:77-88 `ReadLogSignerConfigFromFile`, adminconfig.go:43-54 `ReadAdminClientConfigFromFile`, logconfig.go:35-46
`ReadLogClientConfigFromFile`: the struct `old` after reading the text; `none` is an error. -/
def read (t : Fields) (old : List Value) (text : Bytes) : Option (List Value) :=
  match parse text with
  | some .null => some old
  | some (.obj l) => decFields (t.map (·.1)) (setField t) old l
  | _ => none

/-- `&LogServerConfig{}` and the like. -/
def fresh (t : Fields) : List Value := t.map (·.2.zero)

/-- os.go `WriteFile`: the file is emptied and then written: what a file can hold that held `before`, if the process stops while `text` is written. -/
inductive Leaves (before text : Bytes) : Bytes → Prop
  | not_begun : Leaves before text before
  | part (p r : Bytes) : p ++ r = text → Leaves before text p

/-- logserver/config.go:10-40 `LogServerConfig` -/
def logServer : Fields :=
  [(asc "RpcEndpoint", .str), (asc "HttpEndpoint", .str), (asc "HealthzTimeout", .int), (asc "EtcdService", .str), (asc "EtcdHTTPService", .str), (asc "QuotaSystem", .str),
    (asc "StorageSystem", .str), (asc "TreeGCEnabled", .bool), (asc "TreeDeleteThresholdInHour", .int), (asc "TreeDeleteMinRunIntervalInHour", .int)]

/-- logsigner/config.go:10-59 `LogSignerConfig` without `QuotaIncreaseFactor`. -/
def logSigner : Fields :=
  [(asc "RpcEndpoint", .str), (asc "HttpEndpoint", .str), (asc "HealthzTimeoutInSec", .int), (asc "QuotaSystem", .str), (asc "StorageSystem", .str),
    (asc "SequencerIntervalFlagInMillSec", .int), (asc "BatchSizeFlag", .int), (asc "NumSeqFlag", .int), (asc "SequencerGuardWindowFlagInSec", .int), (asc "ForceMaster", .bool),
    (asc "EtcdHTTPService", .str), (asc "LockDir", .str), (asc "PreElectionPauseInSec", .int), (asc "MasterHoldIntervalInSec", .int), (asc "MasterHoldJitterInSec", .int)]

/-- adminconfig.go:10-30 `AdminClientConfig` -/
def adminClient : Fields :=
  [(asc "RpcMaxWaitingTimeInSec", .int), (asc "HashStrategy", .str), (asc "DisplayName", .str), (asc "Description", .str), (asc "MaxRootDuration", .int),
    (asc "MaxReceiveMessageSize", .int), (asc "LogAddress", .str), (asc "OutPutPath", .str)]

/-- logconfig.go:10-23 `LogClientConfig` -/
def logClient : Fields :=
  [(asc "TreeId", .int), (asc "RPCAddress", .str), (asc "MaxReceiveMessageSize", .int), (asc "PolicyLogExchangePath", .str), (asc "NumOfWorker", .int)]

/-- logclient.go:74-83 `NewLogClient`: `for i := 1; i <= config.NumOfWorker; i++` starts one worker each (the last field of `logClient`). -/
def workers : List Value → Nat
  | [_, _, _, _, .int n] => n.toNat
  | _ => 0

end Fpki.LogConf
