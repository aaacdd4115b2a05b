import Verif.Model.Domain

/-!
# Model of `pkg/common/json.go`

JSON texts are syntax trees: the envelope `{"T": …, "O": …}`, a list, or any other JSON object (`leaf`). What `encoding/json` does with the fields of an object is a parameter.
-/
namespace Fpki.PolicyJson

open Fpki.Domain (asc star)

/-- The types with a name in json.go:63-82. -/
inductive Kind
  | pcsr | pc | spct | pcrevsr | pcrev | spcrevt | proof | logRoot | spctSigInput
deriving DecidableEq, Repr

/-- json.go:63-82: the names of the types. -/
def Kind.tag : Kind → Bytes
  | .pcsr => asc "pcsr"
  | .pc => asc "pc"
  | .spct => asc "spct"
  | .pcrevsr => asc "pcrevsr"
  | .pcrev => asc "pcrev"
  | .spcrevt => asc "spcrevt"
  | .proof => asc "trillian.Proof"
  | .logRoot => asc "logrootv1"
  | .spctSigInput => asc "spctsiginput"

/-- json.go:196-214: the type with a name. -/
def kindOf (t : Bytes) : Option Kind :=
  if t = asc "pcsr" then some .pcsr
  else if t = asc "pc" then some .pc
  else if t = asc "pcrevsr" then some .pcrevsr
  else if t = asc "pcrev" then some .pcrev
  else if t = asc "spct" then some .spct
  else if t = asc "spcrevt" then some .spcrevt
  else if t = asc "trillian.Proof" then some .proof
  else if t = asc "logrootv1" then some .logRoot
  else if t = asc "spctsiginput" then some .spctSigInput
  else none

/-- json.go:141-143: does the type embed `PolicyPartBase`? (policies.go, embedded_policies.go, policy_issuance.go) -/
def Kind.hasRaw : Kind → Bool
  | .pcrevsr | .proof | .logRoot => false
  | _ => true

/-- A JSON text; `P` are the objects that are not envelopes. -/
inductive Json (P : Type)
  | leaf (p : P)
  | arr (l : List (Json P))
  | env (t : Bytes) (o : Json P)

/-- An object of a named type: its fields, and its `JSONField` (always `none` for types without one). -/
structure Obj (C P : Type) where
  kind : Kind
  content : C
  raw : Option (Json P)

/-- A Go value. A slice has elements of the type `any` or of another type. -/
inductive Val (C P : Type)
  | obj (o : Obj C P)
  | ptr (v : Val C P)
  | nilPtr
  | slice (ofAny : Bool) (vs : List (Val C P))
  | other

/-- encoding/json on the fields of a named type. -/
structure Lib (C P : Type) where
  marshal : Kind → C → Option P
  unmarshal : Kind → Json P → Option C

/-- Success, an error, or a panic. -/
inductive Out (α : Type)
  | ok (a : α)
  | err
  | panic

variable {C P : Type}

mutual
/-- json.go:61-108 `marshalJSON`: the components T and O. -/
def marshal (L : Lib C P) : Val C P → Out (Bytes × Json P)
  | .obj o =>
    match L.marshal o.kind o.content with
    | none => .err
    | some p => .ok (o.kind.tag, .leaf p)
  | .ptr v =>
    match marshal L v with
    | .ok (t, o) => .ok (star :: t, o)
    | .err => .err
    | .panic => .panic
  | .nilPtr => .panic
  | .slice _ vs =>
    match marshalAll L vs with
    | .ok js => .ok (asc "[]", .arr js)
    | .err => .err
    | .panic => .panic
  | .other => .err

/-- json.go:90-103: the elements of a slice, each with its envelope. -/
def marshalAll (L : Lib C P) : List (Val C P) → Out (List (Json P))
  | [] => .ok []
  | v :: vs =>
    match marshal L v with
    | .err => .err
    | .panic => .panic
    | .ok (t, o) =>
      match marshalAll L vs with
      | .ok js => .ok (.env t o :: js)
      | .err => .err
      | .panic => .panic
end

/-- json.go:18-25, 44-58 `ToJSON` -/
def toJSON (L : Lib C P) (v : Val C P) : Out (Json P) :=
  match marshal L v with
  | .ok (t, o) => .ok (.env t o)
  | .err => .err
  | .panic => .panic

/-- json.go:121-127, 169-219: is this the name of a type (or of a slice)? -/
def known (t : Bytes) : Bool := t = asc "[]" || (kindOf t).isSome

/-- json.go:131-162: the JSON text is stored in the object (unless `skip`), if it has a field for it. -/
def setRaw (skip : Bool) (data : Json P) : Val C P → Val C P
  | .obj o => if !skip && o.kind.hasRaw then .obj { o with raw := some data } else .obj o
  | v => v

/-- json.go:221-226 `inflateObj`, for a name of a type. -/
def inflate (L : Lib C P) (o : Json P) (t : Bytes) : Option (Val C P) :=
  match kindOf t with
  | none => none
  | some k => (L.unmarshal k o).map (fun c => .obj ⟨k, c, none⟩)

mutual
/-- json.go:169-219 `unmarshalTypeObject`; `none` is an error. -/
def unmarshalType (L : Lib C P) (skip : Bool) : Json P → Bytes → Option (Val C P)
  | .arr l, t => if t = asc "[]" then (unmarshalAll L skip l).map (.slice true) else inflate L (.arr l) t
  | .leaf p, t => if t = asc "[]" then none else inflate L (.leaf p) t
  | .env t' o, t => if t = asc "[]" then none else inflate L (.env t' o) t

/-- json.go:181-195: the elements of a list. -/
def unmarshalAll (L : Lib C P) (skip : Bool) : List (Json P) → Option (List (Val C P))
  | [] => some []
  | j :: js =>
    match unmarshalEnv L skip j, unmarshalAll L skip js with
    | some v, some vs => some (v :: vs)
    | _, _ => none

/-- json.go:110-165 `UnmarshalJSON`; texts that are no envelope have an empty T. -/
def unmarshalEnv (L : Lib C P) (skip : Bool) : Json P → Option (Val C P)
  | .env t o =>
    if known t then (unmarshalType L skip o t).map (setRaw skip (.env t o))
    else
      match t with
      | c :: t' =>
        if c = star ∧ known t' = true then (unmarshalType L skip o t').map (fun v => .ptr (setRaw skip (.env t o) v))
        else none
      | [] => none
  | _ => none
end

/-- json.go:27-34 `FromJSON`; `skip` is the option `WithSkipCopyJSONIntoPolicyObjects`. An error is `none`. -/
def fromJSON (L : Lib C P) (skip : Bool) (j : Json P) : Option (Val C P) := unmarshalEnv L skip j

/-- policy_common.go:23-29 `rawTemplate`, for the types with a `JSONField` -/
def rawOf (L : Lib C P) (o : Obj C P) : Out (Json P) :=
  match o.raw with
  | none => toJSON L (.ptr (.obj o))
  | some j => .ok j

end Fpki.PolicyJson
