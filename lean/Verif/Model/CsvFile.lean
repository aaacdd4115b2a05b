import Verif.Model.Rows
import Verif.Model.PolicyJson

/-!
# Model of `util.LoadCertsAndChainsFromCSV` and `util.LoadPoliciesFromRaw` (`pkg/util/io.go`, `types.go`)

`csv.Reader.ReadAll` is modelled on whole texts (with line breaks in quotes, CRLF, empty lines), for the settings of io.go:170-171 (comma, no lazy
quotes, no trimming, any number of fields). Base64 as in `Rows`. X.509 parsing is the parameter `parse` (`none`: an error, also a "non-fatal"
one). Positions in error values are not modelled.
-/
namespace Fpki.CsvFile
open Fpki.FastCsv (comma quote)
open Fpki.Chains (X509 Unfolded)

/-! ## `encoding/csv` -/

/-- `csv.Reader.readLine`: CRLF at the end of a line becomes LF; a CR at the end of the text is dropped. -/
def normalise : Bytes → Bytes
  | [] => []
  | [c] => if c = 13 then [] else [c]
  | c :: d :: r => if c = 13 ∧ d = 10 then 10 :: normalise r else c :: normalise (d :: r)

/-- What follows a field. -/
inductive Sep where
  | comma
  | line
deriving DecidableEq, Repr

/-- `csv.Reader.readRecord`, a field that does not begin with a quote: the value, what follows it and the rest. `none`: ErrBareQuote. -/
def plain : Bytes → Option (Bytes × Sep × Bytes)
  | [] => some ([], .line, [])
  | c :: r =>
    if c = comma then some ([], .comma, r)
    else if c = 10 then some ([], .line, r)
    else if c = quote then none
    else (plain r).map fun p => (c :: p.1, p.2)

/-- `csv.Reader.readRecord`, a field from after its quote. `none`: ErrQuote. -/
def quoted : Bytes → Option (Bytes × Sep × Bytes)
  | [] => none
  | [c] => if c = quote then some ([], .line, []) else none
  | c :: d :: r =>
    if c = quote then
      (if d = quote then (quoted r).map fun p => (quote :: p.1, p.2)
      else if d = comma then some ([], .comma, r)
      else if d = 10 then some ([], .line, r)
      else none)
    else (quoted (d :: r)).map fun p => (c :: p.1, p.2)

/-- `csv.Reader.readRecord`: one field. -/
def field (t : Bytes) : Option (Bytes × Sep × Bytes) :=
  if t.head? = some quote then quoted t.tail else plain t

theorem plain_length : ∀ (t v r : Bytes) (s : Sep), plain t = some (v, s, r) → r.length ≤ t.length ∧ (s = .comma ∨ t ≠ [] → r.length < t.length)
  | [], v, r, s, h => by
    simp only [plain, Option.some.injEq, Prod.mk.injEq] at h
    obtain ⟨_, rfl, rfl⟩ := h
    exact ⟨Nat.le_refl _, fun h => by rcases h with h | h <;> simp at h⟩
  | c :: t, v, r, s, h => by
    rw [plain] at h
    split at h
    · simp only [Option.some.injEq, Prod.mk.injEq] at h
      obtain ⟨_, _, rfl⟩ := h
      simp
    split at h
    · simp only [Option.some.injEq, Prod.mk.injEq] at h
      obtain ⟨_, _, rfl⟩ := h
      simp
    split at h
    · cases h
    cases hp : plain t with
    | none => rw [hp] at h; cases h
    | some p =>
      rw [hp] at h
      simp only [Option.map_some, Option.some.injEq, Prod.mk.injEq] at h
      have := (plain_length t p.1 r s (by rw [hp, ← h.2])).1
      simp only [List.length_cons]
      omega

theorem quoted_length : ∀ (t v r : Bytes) (s : Sep), quoted t = some (v, s, r) → r.length < t.length
  | [], _, _, _, h => by cases h
  | [c], _, _, _, h => by
    unfold quoted at h; split at h <;> simp at h
    simp [← h.2.2]
  | c :: d :: t, v, r, s, h => by
    unfold quoted at h
    split at h
    · split at h
      · cases hq : quoted t with
        | none => rw [hq] at h; cases h
        | some p =>
          rw [hq] at h
          simp only [Option.map_some, Option.some.injEq, Prod.mk.injEq] at h
          have := quoted_length t p.1 r s (by rw [hq, ← h.2])
          simp only [List.length_cons]; omega
      split at h
      · simp only [Option.some.injEq, Prod.mk.injEq] at h
        rw [← h.2.2]; simp only [List.length_cons]; omega
      split at h
      · simp only [Option.some.injEq, Prod.mk.injEq] at h
        rw [← h.2.2]; simp only [List.length_cons]; omega
      · cases h
    · cases hq : quoted (d :: t) with
      | none => rw [hq] at h; cases h
      | some p =>
        rw [hq] at h
        simp only [Option.map_some, Option.some.injEq, Prod.mk.injEq] at h
        have := quoted_length (d :: t) p.1 r s (by rw [hq, ← h.2])
        simp only [List.length_cons] at this ⊢; omega

theorem field_length {t v r : Bytes} {s : Sep} (h : field t = some (v, s, r)) : s = .comma ∨ t ≠ [] → r.length < t.length := by
  unfold field at h
  split at h
  · have := quoted_length _ _ _ _ h
    rw [List.length_tail] at this
    intro _
    omega
  · exact (plain_length _ _ _ _ h).2

/-- `csv.Reader.readRecord`: the fields up to the end of the record, and the rest of the text. -/
def record (t : Bytes) : Option (List Bytes × Bytes) :=
  match h : field t with
  | none => none
  | some (v, .line, r) => some ([v], r)
  | some (v, .comma, r) => (record r).map fun p => (v :: p.1, p.2)
termination_by t.length
decreasing_by exact field_length h (Or.inl rfl)

theorem record_length (n : Nat) : ∀ (t r : Bytes) (vs : List Bytes), t.length ≤ n → t ≠ [] → record t = some (vs, r) → r.length < t.length := by
  induction n with
  | zero => intro t r vs hn ht; exact absurd (List.eq_nil_of_length_eq_zero (Nat.le_zero.1 hn)) ht
  | succ n ih =>
    intro t r vs hn ht h
    rw [record] at h
    split at h
    · cases h
    · rename_i v r' hf
      simp only [Option.some.injEq, Prod.mk.injEq] at h
      rw [← h.2]
      exact field_length hf (Or.inr ht)
    · rename_i v r' hf
      have hl := field_length hf (Or.inl rfl)
      cases hr : record r' with
      | none => rw [hr] at h; cases h
      | some p =>
        rw [hr] at h
        simp only [Option.map_some, Option.some.injEq, Prod.mk.injEq] at h
        by_cases he : r' = []
        · subst he
          rw [show record [] = some ([[]], []) by rw [record]; split <;> rename_i hf <;> cases hf <;> rfl] at hr
          simp only [Option.some.injEq] at hr
          rw [← h.2, ← hr]
          exact hl
        · have := ih r' r p.1 (by omega) he (by rw [hr, ← h.2])
          omega

/-- `csv.Reader.ReadAll` on a normalised text: empty lines are skipped; the first error ends the reading. -/
def records (t : Bytes) : Option (List (List Bytes)) :=
  match t with
  | [] => some []
  | c :: t' =>
    if c = 10 then records t'
    else
      match h : record (c :: t') with
      | none => none
      | some (vs, r) => (records r).map (vs :: ·)
termination_by t.length
decreasing_by
  · simp
  · exact record_length _ _ _ _ (Nat.le_refl _) (by simp) h

/-- `csv.Reader.ReadAll` -/
def readAll (text : Bytes) : Option (List (List Bytes)) := records (normalise text)

/-! ## Certificates -/

/-- What a call gives: a value, an error, or the process panics. -/
inductive Out (α : Type) where
  | ok (a : α)
  | err
  | panic
deriving DecidableEq, Repr

/-- io.go:229-241 `parseCertFromCSVField` -/
def parseField (parse : Bytes → Option X509) (f : Bytes) : Option X509 := (Rows.decodeField f).bind parse

/-- io.go:195-201: the loop over the parts of the chain column. -/
def parseChain (parse : Bytes → Option X509) : List Bytes → Option (List X509)
  | [] => some []
  | s :: ss =>
    match parseField parse s with
    | none => none
    | some c => (parseChain parse ss).map (c :: ·)

/-- io.go:180-203: one record (`strings.Split` is as `splitSemicolonField`). An index out of range panics. -/
def loadRecord (parse : Bytes → Option X509) (fields : List Bytes) : Out (X509 × List X509) :=
  match fields[3]? with
  | none => .panic
  | some f =>
    match parseField parse f with
    | none => .err
    | some leaf =>
      match fields[4]? with
      | none => .panic
      | some g =>
        match parseChain parse (Rows.splitSemicolon g) with
        | none => .err
        | some chain => .ok (leaf, chain)

/-- io.go:179-203: the loop over the records; `leafs` and `chains`. -/
def loadRecords (parse : Bytes → Option X509) : List (List Bytes) → Out (List X509 × List (List X509))
  | [] => .ok ([], [])
  | fields :: rest =>
    if fields = [] then loadRecords parse rest
    else
      match loadRecord parse fields with
      | .err => .err
      | .panic => .panic
      | .ok (leaf, chain) =>
        match loadRecords parse rest with
        | .err => .err
        | .panic => .panic
        | .ok (ls, cs) => .ok (leaf :: ls, chain :: cs)

/-- io.go:158-208 `LoadCertsAndChainsFromCSV`. -/
def loadCertsAndChains (H : Bytes → Bytes) (parse : Bytes → Option X509) (text : Bytes) : Out Unfolded :=
  match readAll text with
  | none => .err
  | some rs =>
    match loadRecords parse rs with
    | .err => .err
    | .panic => .panic
    | .ok (leafs, chains) => .ok (Chains.unfoldCerts H leafs chains)

/-! ## Policies -/
open Fpki.PolicyJson (Val Lib Json Kind)

/-- policies.go:13-17: the types with `SerialNumber` and `Domain`, which are those that embed `PolicyCertificateBase` (policies.go:52-53, 82-83, 120-121 and 113-114,
policy_issuance.go:9-11). -/
def docKind : Kind → Bool
  | .pc | .pcsr | .pcrev => true
  | _ => false

/-- types.go:37: the assertion `e.(common.PolicyDocument)`; the methods have value receivers, so objects and pointers to objects implement it. -/
def isDocument {C P : Type} : Val C P → Bool
  | .obj o => docKind o.kind
  | .ptr (.obj o) => docKind o.kind
  | _ => false

/-- types.go:32-43 `SliceToTypedSlice` -/
def sliceToTyped {α : Type} (is : α → Bool) : List α → List α × List α
  | [] => ([], [])
  | e :: s =>
    let r := sliceToTyped is s
    if is e then (e :: r.1, r.2) else (r.1, e :: r.2)

/-- types.go:6-27 `ToType[[]any]` and `ToTypedSlice` -/
def toTypedSlice {C P : Type} (is : Val C P → Bool) : Val C P → Option (List (Val C P))
  | .slice true vs =>
    let r := sliceToTyped is vs
    if 0 < r.2.length then none else some r.1
  | _ => none

/-- io.go:212-225 `LoadPoliciesFromRaw` -/
def loadPolicies {C P : Type} (L : Lib C P) (j : Json P) : Option (List (Val C P)) :=
  match PolicyJson.fromJSON L false j with
  | none => none
  | some obj => toTypedSlice isDocument obj

end Fpki.CsvFile
