import Verif.Model.Bytes

/-!
# Model of `pkg/domain/domain.go`

The public suffix list (golang.org/x/net/publicsuffix) is a parameter: a function from a name to its public suffix and whether that is managed by ICANN. The two regular
expressions are written out. A map whose iteration order is arbitrary is modelled by a list without duplicates, whose order the theorems do not fix.
-/
namespace Fpki.Domain

/-- The byte `.` -/
def dot : Byte := 46
/-- The byte `*` -/
def star : Byte := 42

/-- The bytes of an ASCII string. -/
def asc (s : String) : Bytes := s.toList.map (fun c => UInt8.ofNat c.toNat)

/-- Add a byte to the first label. -/
def consHead (c : Byte) : List Bytes → List Bytes
  | [] => [[c]]
  | l :: ls => (c :: l) :: ls

/-- `strings.Split(s, ".")` -/
def split : Bytes → List Bytes
  | [] => [[]]
  | c :: s => if c = dot then [] :: split s else consHead c (split s)

/-- `strings.Join(ls, ".")` -/
def joinDots : List Bytes → Bytes
  | [] => []
  | [l] => l
  | l :: l' :: ls => l ++ dot :: joinDots (l' :: ls)

/-- `publicsuffix.PublicSuffix`: the suffix, and whether it is managed by ICANN. -/
abbrev Psl := Bytes → Bytes × Bool

/-- `[[:alnum:]]` -/
def alnum (c : Byte) : Bool := (48 ≤ c && c ≤ 57) || (65 ≤ c && c ≤ 90) || (97 ≤ c && c ≤ 122)

/-- domain.go:45 `correctLabel`: `^(\*|[[:alnum:]]|[[:alnum:]][[:alnum:]-]{0,61}[[:alnum:]])$` -/
def correctLabel (l : Bytes) : Bool :=
  l == [star] ||
  (decide (l.length ≤ 63) && (l.head?.any alnum) && (l.getLast?.any alnum) && l.all (fun c => alnum c || c == 45))

/-- domain.go:44 `viableDomain`: `^(\*\.)?[^*]*$` -/
def viableDomain (d : Bytes) : Bool := !(if d.take 2 = [star, dot] then d.drop 2 else d).contains star

/-- domain.go:86-109 `IsValidDomain` -/
def isValidDomain (psl : Psl) (d : Bytes) : Bool :=
  viableDomain d && decide (d.length ≤ 255) && !((psl d).2 && (psl d).1 == d) && (split d).all correctLabel

/-- domain.go:153-165 `removeWildCardAndWWW` -/
def removeWildCardAndWWW (d : Bytes) : Bytes :=
  let d := if d.length > 2 ∧ d.take 2 = [star, dot] then d.drop 2 else d
  if d.length > 4 ∧ d.take 4 = asc "www." then d.drop 4 else d

/-- `strings.TrimSuffix` -/
def trimSuffix (s t : Bytes) : Bytes := if t.isSuffixOf s then s.take (s.length - t.length) else s

/-- `1 + strings.LastIndex(s, ".")` -/
def afterLastDot (s : Bytes) : Nat := s.length - (s.reverse.takeWhile (fun c => c ≠ dot)).length

/-- `publicsuffix.EffectiveTLDPlusOne` of golang.org/x/net v0.x (list.go): an error if a label is empty, or the name is a public suffix; otherwise the suffix and one more
label. -/
def effectiveTLDPlusOne (psl : Psl) (d : Bytes) : Option Bytes :=
  if (split d).any (fun l => l.isEmpty) then none
  else if d.length ≤ (psl d).1.length then none
  else
    let i := d.length - (psl d).1.length - 1
    if d[i]? ≠ some dot then none
    else some (d.drop (afterLastDot (d.take i)))

/-- domain.go:112-135 `SplitE2LD` -/
def splitE2LD (psl : Psl) (d : Bytes) : Option (List Bytes) :=
  if (psl d).2 = false then some [d]
  else
    match effectiveTLDPlusOne psl d with
    | none => none
    | some e =>
      let d := trimSuffix d e
      let d := trimSuffix d [dot]
      some ((if d ≠ [] then split d else []) ++ [e])

/-- domain.go:235-240: the names from the last element up to the whole. -/
def parents : List Bytes → Bytes → List Bytes
  | [], _ => []
  | l :: ls, d => (l ++ dot :: d) :: parents ls (l ++ dot :: d)

/-- domain.go:220-242 `ParseDomainName` -/
def parseDomainName (psl : Psl) (d : Bytes) : Option (List Bytes) :=
  if !isValidDomain psl d then none
  else
    match splitE2LD psl (removeWildCardAndWWW d) with
    | none => none
    | some result =>
      match result.reverse with
      | [] => none
      | e :: rest => some (e :: parents rest e)

/-- domain.go:206-214 `findShortestLength` -/
def shortestLength (names : List (List Bytes)) : Nat := names.foldl (fun m n => if n.length < m then n.length else m) (names.headD []).length

/-- domain.go:193-199: some name has another label at this level. -/
def differs (names : List (List Bytes)) (i : Nat) (new : Bytes) : Bool := names.any (fun n => decide (n.getD (n.length - 1 - i) [] ≠ new))

/-- domain.go:191-201: `k` iterations left, the next is the `i`-th. -/
def suffixLoop (names : List (List Bytes)) : Nat → Nat → Bytes → Bytes
  | 0, _, result => result
  | k + 1, i, result =>
    let new := (names.headD []).getD ((names.headD []).length - 1 - i) []
    if differs names i new then result
    else suffixLoop names k (i + 1) (new ++ dot :: result)

/-- domain.go:185-203 `findLongestSuffix` -/
def findLongestSuffix (names : List (List Bytes)) : Bytes := suffixLoop names (shortestLength names) 0 []

/-- domain.go:73: add to the group. -/
def addGroup (e : Bytes) (p : List Bytes) : List (Bytes × List (List Bytes)) → List (Bytes × List (List Bytes))
  | [] => [(e, [p])]
  | g :: gs => if g.1 = e then (e, g.2 ++ [p]) :: gs else g :: addGroup e p gs

/-- domain.go:61-74: the groups; names that cannot be split are skipped. -/
def groups (psl : Psl) (names : List Bytes) : List (Bytes × List (List Bytes)) :=
  names.foldl (fun gs d =>
    match splitE2LD psl d with
    | none => gs
    | some s => addGroup (s.getLast?.getD []) s.dropLast gs) []

/-- domain.go:49-83 `ExtractAffectedDomains`, given the list of the unique names (domain.go:50). -/
def extractUnique (psl : Psl) (unique : List Bytes) : List Bytes :=
  if unique.length ≤ 4 then unique
  else (groups psl unique).map (fun g => findLongestSuffix g.2 ++ g.1)

/-- domain.go:168-182 `uniqueValidDomainName`: the keys of a map, in any order. -/
def IsUnique (psl : Psl) (names unique : List Bytes) : Prop :=
  unique.Nodup ∧ ∀ x, x ∈ unique ↔ ∃ d ∈ names, isValidDomain psl d = true ∧ removeWildCardAndWWW d = x

end Fpki.Domain
