import Verif.Model.PolicyCert
/-!
The text format of encoding/json (the library used by pkg/mapserver/config/config.go:24-43 and by
pkg/common/json.go): the texts `json.Marshal` writes and what `json.Unmarshal` reads from a text
before it looks at the Go type. Simplification: the limit of 10000 nested arrays and objects is not
modelled.
-/
namespace Fpki.Json

open Fpki.Policy

/-- A JSON text without white space: numbers as they are written, members in the order written. -/
inductive J
  | null
  | bool (b : Bool)
  | num (lit : Bytes)
  | str (s : Bytes)
  | arr (l : List J)
  | obj (l : List (Bytes × J))

/-- encoding/json tables.go and encode.go `appendString`: the lower case hexadecimal digit. -/
def hexDigit (n : Nat) : Byte := if n < 10 then UInt8.ofNat (0x30 + n) else UInt8.ofNat (0x57 + n)

/-- encode.go `appendString` with `escapeHTML`: one ASCII byte. -/
def quoteAscii (b : Byte) : Bytes :=
  if b = 0x22 ∨ b = 0x5C then [0x5C, b]
  else if b = 0x08 then [0x5C, 0x62]
  else if b = 0x0C then [0x5C, 0x66]
  else if b = 0x0A then [0x5C, 0x6E]
  else if b = 0x0D then [0x5C, 0x72]
  else if b = 0x09 then [0x5C, 0x74]
  else if b < 0x20 ∨ b = 0x3C ∨ b = 0x3E ∨ b = 0x26 then [0x5C, 0x75, 0x30, 0x30, hexDigit (b.toNat / 16), hexDigit (b.toNat % 16)]
  else [b]

/-- encode.go `appendString`, the loop; `k` more bytes belong to a rune that is copied, `d` more bytes to one that was written as an escape. -/
def quoteFrom : Nat → Nat → Bytes → Bytes
  | _, _, [] => []
  | k, d + 1, _ :: t => quoteFrom k d t
  | k + 1, 0, b :: t => b :: quoteFrom k 0 t
  | 0, 0, b :: t =>
    if b < 0x80 then quoteAscii b ++ quoteFrom 0 0 t
    else
      match runeWidth (b :: t) with
      | 0 => [0x5C, 0x75, 0x66, 0x66, 0x66, 0x64] ++ quoteFrom 0 0 t
      | n + 1 =>
        if b = 0xE2 ∧ t[0]? = some 0x80 ∧ t[1]? = some 0xA8 then [0x5C, 0x75, 0x32, 0x30, 0x32, 0x38] ++ quoteFrom 0 2 t
        else if b = 0xE2 ∧ t[0]? = some 0x80 ∧ t[1]? = some 0xA9 then [0x5C, 0x75, 0x32, 0x30, 0x32, 0x39] ++ quoteFrom 0 2 t
        else b :: quoteFrom n 0 t

/-- encode.go `appendString` -/
def quote (s : Bytes) : Bytes := 0x22 :: quoteFrom 0 0 s ++ [0x22]

/-- decode.go `getu4`: the value of a hexadecimal digit. -/
def hexValue (c : Byte) : Option Nat :=
  if 0x30 ≤ c ∧ c ≤ 0x39 then some (c.toNat - 0x30)
  else if 0x61 ≤ c ∧ c ≤ 0x66 then some (c.toNat - 0x61 + 10)
  else if 0x41 ≤ c ∧ c ≤ 0x46 then some (c.toNat - 0x41 + 10)
  else none

/-- decode.go `getu4` -/
def u4 (a b c d : Byte) : Option Nat :=
  match hexValue a, hexValue b, hexValue c, hexValue d with
  | some a, some b, some c, some d => some (((a * 16 + b) * 16 + c) * 16 + d)
  | _, _, _, _ => none

/-- unicode/utf8 `EncodeRune`, for runes that are no surrogates. -/
def encodeRune (r : Nat) : Bytes :=
  if r < 0x80 then [UInt8.ofNat r]
  else if r < 0x800 then [UInt8.ofNat (0xC0 + r / 64), UInt8.ofNat (0x80 + r % 64)]
  else if r < 0x10000 then [UInt8.ofNat (0xE0 + r / 4096), UInt8.ofNat (0x80 + r / 64 % 64), UInt8.ofNat (0x80 + r % 64)]
  else [UInt8.ofNat (0xF0 + r / 262144), UInt8.ofNat (0x80 + r / 4096 % 64), UInt8.ofNat (0x80 + r / 64 % 64), UInt8.ofNat (0x80 + r % 64)]

/-- decode.go `unquoteBytes`: the byte for `\` and another byte (scanner.go `stateInStringEsc` rejects the others). -/
def simpleEscape (c : Byte) : Option Byte :=
  if c = 0x22 ∨ c = 0x5C ∨ c = 0x2F then some c
  else if c = 0x62 then some 0x08
  else if c = 0x66 then some 0x0C
  else if c = 0x6E then some 0x0A
  else if c = 0x72 then some 0x0D
  else if c = 0x74 then some 0x09
  else none

def surrogate (r : Nat) : Bool := 0xD800 ≤ r && r < 0xE000

/-- decode.go `unquoteBytes`: `\uXXXX`, and whether the next `\uXXXX` (value `next`) is used up too. -/
def unicodeEscape (r : Nat) (next : Option Nat) : Bytes × Bool :=
  if surrogate r then
    match next with
    | some r1 => if r < 0xDC00 ∧ 0xDC00 ≤ r1 ∧ r1 < 0xE000 then (encodeRune (0x10000 + (r - 0xD800) * 1024 + (r1 - 0xDC00)), true) else ([0xEF, 0xBF, 0xBD], false)
    | none => ([0xEF, 0xBF, 0xBD], false)
  else (encodeRune r, false)

/-- decode.go `getu4` on what follows an escape. -/
def nextU4 : Bytes → Option Nat
  | 0x5C :: 0x75 :: a :: b :: c :: d :: _ => u4 a b c d
  | _ => none

/-- decode.go `unquoteBytes`, scanner.go `stateInString` …: the string from after the opening quote, and the text after the closing quote. `k` more bytes belong to a rune that is copied, `d` more bytes to an escape. -/
def parseStr : Nat → Nat → Bytes → Option (Bytes × Bytes)
  | _, _, [] => none
  | k, d + 1, _ :: t => parseStr k d t
  | k + 1, 0, b :: t => (parseStr k 0 t).map (fun p => (b :: p.1, p.2))
  | 0, 0, b :: t =>
    if b = 0x22 then some ([], t)
    else if b < 0x20 then none
    else if b = 0x5C then
      match t with
      | [] => none
      | c :: t1 =>
        if c = 0x75 then
          match t1 with
          | x :: y :: z :: w :: rest =>
            match u4 x y z w with
            | none => none
            | some r =>
              if (unicodeEscape r (nextU4 rest)).2 then (parseStr 0 11 t).map (fun p => ((unicodeEscape r (nextU4 rest)).1 ++ p.1, p.2))
              else (parseStr 0 5 t).map (fun p => ((unicodeEscape r (nextU4 rest)).1 ++ p.1, p.2))
          | _ => none
        else
          match simpleEscape c with
          | none => none
          | some e => (parseStr 0 1 t).map (fun p => (e :: p.1, p.2))
    else
      match runeWidth (b :: t) with
      | 0 => (parseStr 0 0 t).map (fun p => ([0xEF, 0xBF, 0xBD] ++ p.1, p.2))
      | n + 1 => (parseStr n 0 t).map (fun p => (b :: p.1, p.2))

/-- A decimal digit. -/
def digit (b : Byte) : Bool := 0x30 ≤ b && b ≤ 0x39

/-- scanner.go `stateDot`, `stateDot0`: the fraction (empty if there is none), and the rest. -/
def parseFrac : Bytes → Option (Bytes × Bytes)
  | 0x2E :: t => if (t.takeWhile digit).isEmpty then none else some (0x2E :: t.takeWhile digit, t.dropWhile digit)
  | t => some ([], t)

/-- scanner.go `stateE`, `stateESign`, `stateE0`: the exponent (empty if there is none), and the rest. -/
def parseExp : Bytes → Option (Bytes × Bytes)
  | [] => some ([], [])
  | e :: t =>
    if e = 0x65 ∨ e = 0x45 then
      match t with
      | [] => none
      | c :: t' =>
        if c = 0x2B ∨ c = 0x2D then
          if (t'.takeWhile digit).isEmpty then none else some (e :: c :: t'.takeWhile digit, t'.dropWhile digit)
        else if ((c :: t').takeWhile digit).isEmpty then none else some (e :: (c :: t').takeWhile digit, (c :: t').dropWhile digit)
    else some ([], e :: t)

/-- scanner.go `state0`, `state1`: the digits before the fraction. -/
def parseInt : Bytes → Option (Bytes × Bytes)
  | [] => none
  | b :: t => if b = 0x30 then some ([b], t) else if digit b then some (b :: t.takeWhile digit, t.dropWhile digit) else none

/-- scanner.go `stateBeginValue`, `stateNeg`, …: a number. -/
def parseNum (s : Bytes) : Option (Bytes × Bytes) :=
  let sign : Bytes := if s.head? = some 0x2D then [0x2D] else []
  match parseInt (s.drop sign.length) with
  | none => none
  | some (i, t) =>
    match parseFrac t with
    | none => none
    | some (f, t) =>
      match parseExp t with
      | none => none
      | some (e, t) => some (sign ++ i ++ f ++ e, t)

/-- scanner.go `isSpace` -/
def space (b : Byte) : Bool := b == 0x20 || b == 0x09 || b == 0x0D || b == 0x0A

def skipWs (s : Bytes) : Bytes := s.dropWhile space

mutual
/-- scanner.go, decode.go `valueInterface`: a value at the beginning of a text (after white space), and the rest. The first argument bounds the number of calls. -/
def parseValue : Nat → Bytes → Option (J × Bytes)
  | 0, _ => none
  | n + 1, s =>
    match skipWs s with
    | [] => none
    | b :: t =>
      if b = 0x22 then (parseStr 0 0 t).map (fun p => (.str p.1, p.2))
      else if b = 0x5B then
        match skipWs t with
        | [] => none
        | c :: t' => if c = 0x5D then some (.arr [], t') else (parseElems n t).map (fun p => (.arr p.1, p.2))
      else if b = 0x7B then
        match skipWs t with
        | [] => none
        | c :: t' => if c = 0x7D then some (.obj [], t') else (parseMembers n t).map (fun p => (.obj p.1, p.2))
      else if b = 0x74 then (if t.take 3 = [0x72, 0x75, 0x65] then some (.bool true, t.drop 3) else none)
      else if b = 0x66 then (if t.take 4 = [0x61, 0x6C, 0x73, 0x65] then some (.bool false, t.drop 4) else none)
      else if b = 0x6E then (if t.take 3 = [0x75, 0x6C, 0x6C] then some (.null, t.drop 3) else none)
      else (parseNum (b :: t)).map (fun p => (.num p.1, p.2))
/-- scanner.go `stateEndValue` in an array: the elements up to `]`. -/
def parseElems : Nat → Bytes → Option (List J × Bytes)
  | 0, _ => none
  | n + 1, s =>
    match parseValue n s with
    | none => none
    | some (v, t) =>
      match skipWs t with
      | [] => none
      | c :: t' =>
        if c = 0x2C then (parseElems n t').map (fun p => (v :: p.1, p.2))
        else if c = 0x5D then some ([v], t')
        else none
/-- scanner.go `stateBeginString`, `stateEndValue` in an object: the members up to `}`. -/
def parseMembers : Nat → Bytes → Option (List (Bytes × J) × Bytes)
  | 0, _ => none
  | n + 1, s =>
    match skipWs s with
    | [] => none
    | q :: t =>
      if q = 0x22 then
        match parseStr 0 0 t with
        | none => none
        | some (k, t) =>
          match skipWs t with
          | [] => none
          | c :: t =>
            if c = 0x3A then
              match parseValue n t with
              | none => none
              | some (v, t) =>
                match skipWs t with
                | [] => none
                | c :: t' =>
                  if c = 0x2C then (parseMembers n t').map (fun p => ((k, v) :: p.1, p.2))
                  else if c = 0x7D then some ([(k, v)], t')
                  else none
            else none
      else none
end

/-- decode.go `Unmarshal`, before the Go type is looked at: one value and white space. (Each call of the parser but the last uses up a byte.) -/
def parse (s : Bytes) : Option J :=
  match parseValue (2 * s.length + 2) s with
  | none => none
  | some (v, t) => if skipWs t = [] then some v else none

mutual
/-- encode.go `Marshal`: the text of a value. -/
def render : J → Bytes
  | .null => [0x6E, 0x75, 0x6C, 0x6C]
  | .bool true => [0x74, 0x72, 0x75, 0x65]
  | .bool false => [0x66, 0x61, 0x6C, 0x73, 0x65]
  | .num lit => lit
  | .str s => quote s
  | .arr l => 0x5B :: renderElems l ++ [0x5D]
  | .obj l => 0x7B :: renderMembers l ++ [0x7D]
/-- encode.go `arrayEncoder.encode` -/
def renderElems : List J → Bytes
  | [] => []
  | v :: l => render v ++ (if l.isEmpty then [] else 0x2C :: renderElems l)
/-- encode.go `structEncoder.encode`, `mapEncoder.encode` -/
def renderMembers : List (Bytes × J) → Bytes
  | [] => []
  | (k, v) :: l => quote k ++ 0x3A :: render v ++ (if l.isEmpty then [] else 0x2C :: renderMembers l)
end

end Fpki.Json
