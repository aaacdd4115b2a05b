/-!
# Hashing: SHA256Hash and the reusable Hasher (pkg/common/hasher.go)

The library's hash (`sha256.New()`) is an object that collects the bytes written to it; its sum is a function `H` of all the bytes written since the last
reset, and taking it changes nothing. `H` is arbitrary except that it gives 32 bytes. Arrays (`SHA256Output`) are variables in a memory, so that a call can
be given a slice of the very variable it writes to.
-/
namespace Fpki.Hasher

/-- Bytes of Go. -/
abbrev Bytes := List UInt8

/-- hasher.go:14-20 `SHA256Hash`: a new hash object, to which the pieces are written one after the other; then its sum appended to nil. -/
def sha256Hash (H : Bytes → Bytes) (data : List Bytes) : Bytes :=
  [] ++ H (data.foldl (fun buf d => buf ++ d) [])

/-- The conversion of a slice to `[32]byte` (or of a pointer to it): panics if the slice is shorter, and takes the first 32 bytes. -/
def toArray (s : Bytes) : Option Bytes := if s.length < 32 then none else some (s.take 32)

/-- hasher.go:22-26 `SHA256Hash32Bytes` -/
def sha256Hash32Bytes (H : Bytes → Bytes) (data : List Bytes) : Option Bytes := toArray (sha256Hash H data)

/-- The memory: the bytes written to the hash object since its last reset (`hasher`, hasher.go:29), its array `storage` (hasher.go:30), and the variables of
type `SHA256Output` of the callers. -/
structure Mem where
  buf : Bytes
  storage : Bytes
  vars : List Bytes

/-- The bytes a call is given: a slice of their own, or a part of one of the variables. -/
inductive Arg
  | lit (b : Bytes)
  | part (v lo hi : Nat)

/-- The bytes of an argument at the time of the call. -/
def Arg.val (vars : List Bytes) : Arg → Bytes
  | .lit b => b
  | .part v lo hi => ((vars[v]?.getD []).take hi).drop lo

/-- The calls on a hasher: `Hash(&v, data)`, `HashString(&v, s)`, `x := HashCopy(data)`, `x := HashStringCopy(s)`, the last two with a new variable for the result. -/
inductive Op
  | hash (v : Nat) (data : Arg)
  | hashString (v : Nat) (s : Arg)
  | hashCopy (data : Arg)
  | hashStringCopy (s : Arg)

/-- `append(a[:n], d...)` for an array `a`: writes in place if there is room, otherwise to a new array. The slice, and the array afterwards. -/
def appendTo (a : Bytes) (n : Nat) (d : Bytes) : Bytes × Bytes :=
  if n + d.length ≤ a.length then (a.take n ++ d, a.take n ++ d ++ a.drop (n + d.length)) else (a.take n ++ d, a)

/-- hasher.go:39-44 `Hash`, on a hash object with `buf` written to it already and the array `out` to write to: the new bytes of the object and of the array.
The data is read by Write, before Sum writes to the array. -/
def hash (H : Bytes → Bytes) (buf out data : Bytes) : Option (Bytes × Bytes) :=
  let buf := []                      -- Reset
  let buf := buf ++ data             -- Write
  (toArray (appendTo out 0 (H buf)).1).map fun a => (buf, a)

/-- hasher.go:39-61: one call. `HashString` (46-49) hashes the bytes of the string; the copying ones (51-61) hash to `storage` and return a copy of it. -/
def call (H : Bytes → Bytes) (m : Mem) : Op → Option Mem
  | .hash v d | .hashString v d =>
    (hash H m.buf (m.vars[v]?.getD []) (d.val m.vars)).map fun (b, a) => { m with buf := b, vars := m.vars.set v a }
  | .hashCopy d | .hashStringCopy d =>
    (hash H m.buf m.storage (d.val m.vars)).map fun (b, a) => { buf := b, storage := a, vars := m.vars ++ [a] }

/-- Calls one after the other; none if one panics. -/
def calls (H : Bytes → Bytes) : Mem → List Op → Option Mem
  | m, [] => some m
  | m, o :: os => (call H m o).bind fun m => calls H m os

end Fpki.Hasher
