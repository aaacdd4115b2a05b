/-!
# Byte strings

`bytes.Compare` and the bit access of `pkg/mapserver/trie/util.go`.
-/
namespace Fpki

abbrev Byte := UInt8
abbrev Bytes := List Byte

/-- trie/util.go:27-29 `bitIsSet`: bit `i` of a byte string, most significant bit of the first byte
first. (The Go code panics past the end; here the bit is 0. Callers below never read past the
end for keys of the right length.) -/
def bitIsSet (b : Bytes) (i : Nat) : Bool := (b.getD (i / 8) 0).toNat.testBit (7 - i % 8)

/-- `bytes.Compare(a, b) < 0` -/
def bytesLt : Bytes → Bytes → Bool
  | _, [] => false
  | [], _ :: _ => true
  | x :: xs, y :: ys => if x < y then true else if y < x then false else bytesLt xs ys

end Fpki
