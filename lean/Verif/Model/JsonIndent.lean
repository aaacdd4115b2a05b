import Verif.Model.Json
/-!
The texts of `json.MarshalIndent` (cmd/ingest/journal/journal.go:322, pkg/pca/config.go:30, pkg/mapserver/config/config.go): encoding/json indent.go `appendIndent` applied to the text of `Marshal`.
-/
namespace Fpki.Json

/-- indent.go `appendNewline` with an empty prefix: a new line and the indentation of the depth. -/
def newline (ind : Bytes) (d : Nat) : Bytes := 0x0A :: (List.replicate d ind).flatten

mutual
/-- indent.go `appendIndent`: a value inside `d` arrays and objects; empty ones stay on the line. -/
def renderAt (ind : Bytes) : Nat → J → Bytes
  | _, .null => [0x6E, 0x75, 0x6C, 0x6C]
  | _, .bool true => [0x74, 0x72, 0x75, 0x65]
  | _, .bool false => [0x66, 0x61, 0x6C, 0x73, 0x65]
  | _, .num lit => lit
  | _, .str s => quote s
  | d, .arr l => 0x5B :: elemsAt ind (d + 1) l ++ (if l.isEmpty then [] else newline ind d) ++ [0x5D]
  | d, .obj l => 0x7B :: membersAt ind (d + 1) l ++ (if l.isEmpty then [] else newline ind d) ++ [0x7D]
/-- indent.go `appendIndent`: the elements, each on its line. -/
def elemsAt (ind : Bytes) : Nat → List J → Bytes
  | _, [] => []
  | d, v :: l => newline ind d ++ renderAt ind d v ++ (if l.isEmpty then [] else 0x2C :: elemsAt ind d l)
/-- indent.go `appendIndent`: the members, each on its line, with a space after the colon. -/
def membersAt (ind : Bytes) : Nat → List (Bytes × J) → Bytes
  | _, [] => []
  | d, (k, v) :: l => newline ind d ++ quote k ++ 0x3A :: 0x20 :: renderAt ind d v ++ (if l.isEmpty then [] else 0x2C :: membersAt ind d l)
end

/-- encode.go `MarshalIndent`, with an empty prefix. -/
def renderIndent (ind : Bytes) (j : J) : Bytes := renderAt ind 0 j

end Fpki.Json
