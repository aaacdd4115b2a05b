import Verif.Model.PolicyJson

/-!
# C60: typed JSON texts
-/
namespace Fpki.PolicyJson

open Fpki.Domain (asc star)

variable {C P : Type}

/-! ## Specification -/

mutual
/-- The values that can be written and read back: objects of named types, slices of such values, and pointers to objects or slices (but not to pointers). -/
def supported : Val C P → Bool
  | .obj _ => true
  | .ptr v => supportedTarget v
  | .slice _ vs => supportedAll vs
  | .nilPtr => false
  | .other => false

/-- What a pointer may point to. -/
def supportedTarget : Val C P → Bool
  | .obj _ => true
  | .slice _ vs => supportedAll vs
  | _ => false

def supportedAll : List (Val C P) → Bool
  | [] => true
  | v :: vs => supported v && supportedAll vs
end

mutual
/-- The same value: the same type, equal fields (as `R` says), the same pointers, and slices with the same elements. -/
inductive Same (R : Kind → C → C → Prop) : Val C P → Val C P → Prop
  | obj (k c c' r r') (h : R k c c') : Same R (.obj ⟨k, c, r⟩) (.obj ⟨k, c', r'⟩)
  | ptr (v v') (h : Same R v v') : Same R (.ptr v) (.ptr v')
  | slice (b b' vs vs') (h : SameAll R vs vs') : Same R (.slice b vs) (.slice b' vs')

inductive SameAll (R : Kind → C → C → Prop) : List (Val C P) → List (Val C P) → Prop
  | nil : SameAll R [] []
  | cons (v v' vs vs') (h : Same R v v') (hs : SameAll R vs vs') : SameAll R (v :: vs) (v' :: vs')
end

/-- encoding/json gives back the fields of the objects of named types, up to `R`. -/
def Lib.RoundTrips (L : Lib C P) (R : Kind → C → C → Prop) : Prop := ∀ k c p, L.marshal k c = some p → ∃ c', L.unmarshal k (.leaf p) = some c' ∧ R k c c'

/-! ## Lemmas -/

theorem kindOf_tag (k : Kind) : kindOf k.tag = some k := by cases k <;> decide +kernel

theorem tag_of_kindOf {t : Bytes} {k : Kind} (h : kindOf t = some k) : t = k.tag := by
  unfold kindOf at h
  split at h
  · cases h; assumption
  · split at h
    · cases h; assumption
    · split at h
      · cases h; assumption
      · split at h
        · cases h; assumption
        · split at h
          · cases h; assumption
          · split at h
            · cases h; assumption
            · split at h
              · cases h; assumption
              · split at h
                · cases h; assumption
                · split at h
                  · cases h; assumption
                  · cases h

theorem tag_ne_list (k : Kind) : k.tag ≠ asc "[]" := by cases k <;> decide +kernel
theorem known_tag (k : Kind) : known k.tag = true := by cases k <;> decide +kernel
theorem known_star_tag (k : Kind) : known (star :: k.tag) = false := by cases k <;> decide +kernel
theorem known_list : known (asc "[]") = true := by decide +kernel
theorem known_star_list : known (star :: asc "[]") = false := by decide +kernel

theorem inflate_tag (L : Lib C P) (o : Json P) (k : Kind) : inflate L o k.tag = (L.unmarshal k o).map (fun c => .obj ⟨k, c, none⟩) := by
  unfold inflate
  rw [kindOf_tag]

theorem unmarshalType_tag (L : Lib C P) (skip : Bool) (o : Json P) (k : Kind) : unmarshalType L skip o k.tag = (L.unmarshal k o).map (fun c => .obj ⟨k, c, none⟩) := by
  cases o <;> (unfold unmarshalType; rw [if_neg (tag_ne_list k), inflate_tag])

/-- The text of a value, as written for a value that is not a pointer. -/
theorem read_back_target {R : Kind → C → C → Prop} {L : Lib C P} (hL : L.RoundTrips R) (skip : Bool) (v : Val C P)
    (hall : ∀ b vs js, v = .slice b vs → supportedAll vs = true → marshalAll L vs = .ok js → ∃ vs', unmarshalAll L skip js = some vs' ∧ SameAll R vs vs')
    (hs : supportedTarget v = true) {t : Bytes} {o : Json P} (hm : marshal L v = .ok (t, o)) :
    known t = true ∧ known (star :: t) = false ∧ ∃ v', unmarshalType L skip o t = some v' ∧ ∀ data, Same R v (setRaw skip data v') := by
  cases v with
  | obj x =>
    obtain ⟨k, c, r⟩ := x
    unfold marshal at hm
    cases hp : L.marshal k c with
    | none => rw [hp] at hm; cases hm
    | some p =>
      rw [hp] at hm
      cases hm
      obtain ⟨c', h1, h2⟩ := hL k c p hp
      refine ⟨known_tag k, known_star_tag k, .obj ⟨k, c', none⟩, by rw [unmarshalType_tag, h1]; rfl, ?_⟩
      intro data
      unfold setRaw
      dsimp only
      split
      · exact .obj _ _ _ _ _ h2
      · exact .obj _ _ _ _ _ h2
  | ptr v => simp [supportedTarget] at hs
  | nilPtr => simp [supportedTarget] at hs
  | other => simp [supportedTarget] at hs
  | slice b vs =>
    unfold marshal at hm
    cases hj : marshalAll L vs with
    | err => rw [hj] at hm; cases hm
    | panic => rw [hj] at hm; cases hm
    | ok js =>
      rw [hj] at hm
      cases hm
      have hs' : supportedAll vs = true := by simpa [supportedTarget] using hs
      obtain ⟨vs', h1, h2⟩ := hall b vs js rfl hs' hj
      refine ⟨known_list, known_star_list, .slice true vs', by unfold unmarshalType; rw [if_pos rfl, h1]; rfl, ?_⟩
      intro data
      exact .slice _ _ _ _ h2

mutual
theorem read_back {R : Kind → C → C → Prop} {L : Lib C P} (hL : L.RoundTrips R) (skip : Bool) : ∀ (v : Val C P), supported v = true → ∀ (t : Bytes) (o : Json P), marshal L v = .ok (t, o) →
    ∃ v', unmarshalEnv L skip (.env t o) = some v' ∧ Same R v v'
  | .obj x, hs, t, o, hm => by
    obtain ⟨h1, h2, v', h3, h4⟩ := read_back_target hL skip (.obj x) (by intro b vs js h; cases h) rfl hm
    exact ⟨_, by unfold unmarshalEnv; rw [if_pos h1, h3]; rfl, h4 _⟩
  | .slice b vs, hs, t, o, hm => by
    obtain ⟨h1, h2, v', h3, h4⟩ := read_back_target hL skip (.slice b vs)
      (by intro b' vs' js h hs' hj; cases h; exact read_back_all hL skip vs hs' js hj) (by simpa [supported, supportedTarget] using hs) hm
    exact ⟨_, by unfold unmarshalEnv; rw [if_pos h1, h3]; rfl, h4 _⟩
  | .nilPtr, hs, _, _, _ => by simp [supported] at hs
  | .other, hs, _, _, _ => by simp [supported] at hs
  | .ptr v, hs, t, o, hm => by
    unfold marshal at hm
    have hst : supportedTarget v = true := by simpa [supported] using hs
    cases hv : marshal L v with
    | err => rw [hv] at hm; cases hm
    | panic => rw [hv] at hm; cases hm
    | ok x =>
      obtain ⟨t', o'⟩ := x
      rw [hv] at hm
      cases hm
      have hall : ∀ b vs js, v = .slice b vs → supportedAll vs = true → marshalAll L vs = .ok js → ∃ vs', unmarshalAll L skip js = some vs' ∧ SameAll R vs vs' := by
        cases v with
        | slice b vs => intro b' vs' js h hs' hj; cases h; exact read_back_all hL skip vs hs' js hj
        | obj x => intro b vs js h; cases h
        | ptr v => intro b vs js h; cases h
        | nilPtr => intro b vs js h; cases h
        | other => intro b vs js h; cases h
      obtain ⟨h1, h2, v', h3, h4⟩ := read_back_target hL skip v hall hst hv
      refine ⟨_, ?_, .ptr _ _ (h4 (.env (star :: t') o))⟩
      unfold unmarshalEnv
      rw [h2, if_neg (by simp)]
      dsimp only
      rw [if_pos ⟨rfl, h1⟩, h3]
      rfl

theorem read_back_all {R : Kind → C → C → Prop} {L : Lib C P} (hL : L.RoundTrips R) (skip : Bool) : ∀ (vs : List (Val C P)), supportedAll vs = true → ∀ js, marshalAll L vs = .ok js →
    ∃ vs', unmarshalAll L skip js = some vs' ∧ SameAll R vs vs'
  | [], _, js, hm => by
    unfold marshalAll at hm
    cases hm
    exact ⟨[], by unfold unmarshalAll; rfl, .nil⟩
  | v :: vs, hs, js, hm => by
    unfold marshalAll at hm
    simp only [supportedAll, Bool.and_eq_true] at hs
    cases hv : marshal L v with
    | err => rw [hv] at hm; cases hm
    | panic => rw [hv] at hm; cases hm
    | ok x =>
      obtain ⟨t, o⟩ := x
      rw [hv] at hm
      dsimp only at hm
      cases hr : marshalAll L vs with
      | err => rw [hr] at hm; cases hm
      | panic => rw [hr] at hm; cases hm
      | ok js' =>
        rw [hr] at hm
        cases hm
        obtain ⟨v', a1, a2⟩ := read_back hL skip v hs.1 t o hv
        obtain ⟨vs', b1, b2⟩ := read_back_all hL skip vs hs.2 js' hr
        exact ⟨v' :: vs', by unfold unmarshalAll; rw [a1, b1], .cons _ _ _ _ a2 b2⟩
end

/-! ## C60 -/

/-- C60 (partial: at most one pointer at a time, and a slice comes back as a slice of `any`): what `ToJSON` writes for a supported value is read back by `FromJSON` as the same value, with the fields as encoding/json gives them back. -/
theorem C60_roundtrip_partial {R : Kind → C → C → Prop} {L : Lib C P} (hL : L.RoundTrips R) (skip : Bool) (v : Val C P) (hs : supported v = true) (j : Json P) (h : toJSON L v = .ok j) :
    ∃ v', fromJSON L skip j = some v' ∧ Same R v v' := by
  unfold toJSON at h
  cases hm : marshal L v with
  | err => rw [hm] at h; cases h
  | panic => rw [hm] at h; cases h
  | ok x =>
    obtain ⟨t, o⟩ := x
    rw [hm] at h
    cases h
    exact read_back hL skip v hs t o hm

mutual
theorem marshal_supported (L : Lib C P) (hm : ∀ k c, L.marshal k c ≠ none) : ∀ (v : Val C P), supported v = true → ∃ x, marshal L v = .ok x
  | .obj x, _ => by
    unfold marshal
    cases h : L.marshal x.kind x.content with
    | none => exact absurd h (hm _ _)
    | some p => exact ⟨_, rfl⟩
  | .slice b vs, hs => by
    obtain ⟨js, hj⟩ := marshalAll_supported L hm vs (by simpa [supported] using hs)
    unfold marshal
    rw [hj]
    exact ⟨_, rfl⟩
  | .nilPtr, hs => by simp [supported] at hs
  | .other, hs => by simp [supported] at hs
  | .ptr v, hs => by
    have hst : supported v = true := by
      cases v <;> simp_all [supported, supportedTarget]
    obtain ⟨x, hx⟩ := marshal_supported L hm v hst
    unfold marshal
    rw [hx]
    exact ⟨_, rfl⟩

theorem marshalAll_supported (L : Lib C P) (hm : ∀ k c, L.marshal k c ≠ none) : ∀ (vs : List (Val C P)), supportedAll vs = true → ∃ js, marshalAll L vs = .ok js
  | [], _ => ⟨[], by unfold marshalAll; rfl⟩
  | v :: vs, hs => by
    simp only [supportedAll, Bool.and_eq_true] at hs
    obtain ⟨⟨t, o⟩, hx⟩ := marshal_supported L hm v hs.1
    obtain ⟨js, hj⟩ := marshalAll_supported L hm vs hs.2
    unfold marshalAll
    rw [hx]
    dsimp only
    rw [hj]
    exact ⟨_, rfl⟩
end

/-- C60: `ToJSON` succeeds for every supported value whose fields can be written. -/
theorem C60_writes (L : Lib C P) (hm : ∀ k c, L.marshal k c ≠ none) (v : Val C P) (hs : supported v = true) : ∃ j, toJSON L v = .ok j := by
  obtain ⟨⟨t, o⟩, hx⟩ := marshal_supported L hm v hs
  unfold toJSON
  rw [hx]
  exact ⟨_, rfl⟩

/-- The type that an envelope names, as in Go: `*` for a pointer. -/
def HasType : Val C P → Bytes → Prop
  | .obj o, t => t = o.kind.tag
  | .slice _ _, t => t = asc "[]"
  | .ptr (.obj o), t => t = star :: o.kind.tag
  | .ptr (.slice _ _), t => t = star :: asc "[]"
  | _, _ => False

theorem inflate_type {L : Lib C P} {o : Json P} {t : Bytes} {v : Val C P} (h : inflate L o t = some v) : ∃ k c, v = .obj ⟨k, c, none⟩ ∧ t = k.tag := by
  unfold inflate at h
  cases hk : kindOf t with
  | none => rw [hk] at h; cases h
  | some k =>
    rw [hk] at h
    dsimp only at h
    cases hu : L.unmarshal k o with
    | none => rw [hu] at h; cases h
    | some c =>
      rw [hu] at h
      cases h
      exact ⟨k, c, rfl, tag_of_kindOf hk⟩

theorem unmarshalType_type {L : Lib C P} {skip : Bool} {o : Json P} {t : Bytes} {v : Val C P} (h : unmarshalType L skip o t = some v) :
    (∃ k c, v = .obj ⟨k, c, none⟩ ∧ t = k.tag) ∨ ∃ vs, v = .slice true vs ∧ t = asc "[]" := by
  cases o with
  | leaf p =>
    unfold unmarshalType at h
    split at h
    · cases h
    · exact Or.inl (inflate_type h)
  | env t' o =>
    unfold unmarshalType at h
    split at h
    · cases h
    · exact Or.inl (inflate_type h)
  | arr l =>
    unfold unmarshalType at h
    split at h
    · rename_i ht
      cases hl : unmarshalAll L skip l with
      | none => rw [hl] at h; cases h
      | some vs =>
        rw [hl] at h
        cases h
        exact Or.inr ⟨vs, rfl, ht⟩
    · exact Or.inl (inflate_type h)

/-- C60: `FromJSON` returns a value of exactly the type that the text names; so the type assertions on its result are decided by the text's T, and nothing without a known name is accepted. And the object's raw text is the one it was read from (if not skipped). -/
theorem C60_type_and_raw {L : Lib C P} {skip : Bool} {j : Json P} {v : Val C P} (h : fromJSON L skip j = some v) :
    ∃ t o, j = .env t o ∧ HasType v t ∧ ∀ x, (v = .obj x ∨ v = .ptr (.obj x)) → x.raw = if !skip && x.kind.hasRaw then some j else none := by
  unfold fromJSON at h
  cases j with
  | leaf p => unfold unmarshalEnv at h; cases h
  | arr l => unfold unmarshalEnv at h; cases h
  | env t o =>
    refine ⟨t, o, rfl, ?_⟩
    unfold unmarshalEnv at h
    split at h
    · cases hu : unmarshalType L skip o t with
      | none => rw [hu] at h; cases h
      | some v0 =>
        rw [hu] at h
        cases h
        rcases unmarshalType_type hu with ⟨k, c, rfl, ht⟩ | ⟨vs, rfl, ht⟩
        · unfold setRaw
          dsimp only
          split
          · rename_i hc
            refine ⟨ht, fun x hx => ?_⟩
            rcases hx with hx | hx
            · cases hx; dsimp only; rw [if_pos hc]
            · cases hx
          · rename_i hc
            refine ⟨ht, fun x hx => ?_⟩
            rcases hx with hx | hx
            · cases hx; dsimp only; rw [if_neg hc]
            · cases hx
        · exact ⟨ht, fun x hx => by rcases hx with hx | hx <;> cases hx⟩
    · split at h
      · split at h
        · rename_i c t' _ hc
          obtain ⟨rfl, hkn⟩ := hc
          cases hu : unmarshalType L skip o t' with
          | none => rw [hu] at h; cases h
          | some v0 =>
            rw [hu] at h
            cases h
            rcases unmarshalType_type hu with ⟨k, c, rfl, ht⟩ | ⟨vs, rfl, ht⟩
            · unfold setRaw
              dsimp only
              split
              · rename_i hc
                refine ⟨by rw [ht]; rfl, fun x hx => ?_⟩
                rcases hx with hx | hx
                · cases hx
                · cases hx; dsimp only; rw [if_pos hc]
              · rename_i hc
                refine ⟨by rw [ht]; rfl, fun x hx => ?_⟩
                rcases hx with hx | hx
                · cases hx
                · cases hx; dsimp only; rw [if_neg hc]
            · exact ⟨by rw [ht]; rfl, fun x hx => by rcases hx with hx | hx <;> cases hx⟩
        · cases h
      · cases h

/-- C60: so `Raw` of a decoded object (of a type with a raw text) returns the text it was decoded from. -/
theorem C60_raw {L : Lib C P} {j : Json P} {x : Obj C P} (hk : x.kind.hasRaw = true) (h : fromJSON L false j = some (.obj x) ∨ fromJSON L false j = some (.ptr (.obj x))) : rawOf L x = .ok j := by
  have : x.raw = some j := by
    rcases h with h | h
    · obtain ⟨t, o, _, _, hr⟩ := C60_type_and_raw h
      rw [hr x (Or.inl rfl), hk]; rfl
    · obtain ⟨t, o, _, _, hr⟩ := C60_type_and_raw h
      rw [hr x (Or.inr rfl), hk]; rfl
  unfold rawOf
  rw [this]

/-! ## Violations -/

/-- C60 is violated for pointers to pointers: they can be written but not read. -/
theorem C60_double_pointer_violated (L : Lib C P) (skip : Bool) (o : Obj C P) (p : P) (hp : L.marshal o.kind o.content = some p) :
    ∃ j, toJSON L (.ptr (.ptr (.obj o))) = .ok j ∧ fromJSON L skip j = none := by
  refine ⟨.env (star :: star :: o.kind.tag) (.leaf p), ?_, ?_⟩
  · unfold toJSON marshal marshal marshal
    rw [hp]
  · unfold fromJSON unmarshalEnv
    have h1 : known (star :: star :: o.kind.tag) = false := by cases o.kind <;> decide +kernel
    rw [h1, if_neg (by simp)]
    dsimp only
    rw [if_neg (by rw [known_star_tag]; simp)]

/-- `ToJSON` panics for a nil pointer. -/
theorem C60_nil_pointer_violated (L : Lib C P) : toJSON L .nilPtr = .panic := by unfold toJSON marshal; rfl

/-- C60 is violated for typed slices, e.g. `[]PolicyCertificate`: what comes back is a `[]any`. -/
theorem C60_typed_slice_violated {R : Kind → C → C → Prop} {L : Lib C P} (hL : L.RoundTrips R) (skip : Bool) (vs : List (Val C P)) (hs : supportedAll vs = true) (j : Json P)
    (h : toJSON L (.slice false vs) = .ok j) : ∃ vs', fromJSON L skip j = some (.slice true vs') ∧ SameAll R vs vs' := by
  obtain ⟨v', h1, h2⟩ := C60_roundtrip_partial hL skip (.slice false vs) (by simpa [supported] using hs) j h
  obtain ⟨t, o, rfl, ht, _⟩ := C60_type_and_raw h1
  cases h2 with
  | slice _ b' _ vs' hsame =>
    have : b' = true := by
      unfold fromJSON at h1
      unfold unmarshalEnv at h1
      have ht' : t = asc "[]" := ht
      rw [ht', known_list, if_pos rfl] at h1
      cases hu : unmarshalType L skip o (asc "[]") with
      | none => rw [hu] at h1; cases h1
      | some v0 =>
        rw [hu] at h1
        rcases unmarshalType_type hu with ⟨k, c, rfl, hk⟩ | ⟨vs, rfl, _⟩
        · exact absurd hk.symm (tag_ne_list k)
        · cases h1; rfl
    subst this
    exact ⟨vs', h1, hsame⟩

/-! ## A concrete case -/

/-- Fields are numbers, written as they are. -/
def exLib : Lib Nat (Kind × Nat) where
  marshal k c := some (k, c)
  unmarshal k
    | .leaf p => if p.1 = k then some p.2 else none
    | _ => none

example : exLib.RoundTrips (fun _ c c' => c = c') := by
  intro k c p h
  cases h
  exact ⟨c, by simp [exLib], rfl⟩

def exVal : Val Nat (Kind × Nat) := .ptr (.slice true [.obj ⟨.pc, 1, none⟩, .ptr (.obj ⟨.spct, 2, none⟩), .slice true [], .ptr (.slice true [.obj ⟨.pcrev, 3, none⟩])])

example : supported exVal = true := by decide +kernel

example : ∃ j v', toJSON exLib exVal = .ok j ∧ fromJSON exLib false j = some v' ∧ Same (fun _ c c' => c = c') exVal v' := by
  obtain ⟨j, hj⟩ := C60_writes exLib (by intro k c h; cases h) exVal (by decide +kernel)
  obtain ⟨v', h1, h2⟩ := C60_roundtrip_partial (R := fun _ c c' => c = c') (L := exLib) (by intro k c p h; cases h; exact ⟨c, by simp [exLib], rfl⟩) false exVal (by decide +kernel) j hj
  exact ⟨j, v', hj, h1, h2⟩

/-- An object read back has its text: the hypotheses of `C60_raw` are met. -/
example : ∃ (j : Json (Kind × Nat)) (x : Obj Nat (Kind × Nat)), x.kind.hasRaw = true ∧ fromJSON exLib false j = some (.ptr (.obj x)) := by
  refine ⟨.env (star :: asc "pc") (.leaf (.pc, 7)), ⟨.pc, 7, some (.env (star :: asc "pc") (.leaf (.pc, 7)))⟩, rfl, ?_⟩
  have := unmarshalType_tag exLib false (.leaf (.pc, 7)) .pc
  unfold fromJSON unmarshalEnv
  rw [show known (star :: asc "pc") = false from known_star_tag .pc, if_neg (by simp)]
  dsimp only
  rw [if_pos ⟨rfl, known_tag .pc⟩, show asc "pc" = Kind.pc.tag from rfl, this]
  rfl

end Fpki.PolicyJson
