import Verif.Model.PolicyText
import Verif.Lemmas.Reflect
import Verif.Props.PolicyJson
import Verif.Props.PolicyCert
import Verif.Props.Owner
import Mathlib.Data.List.Forall2
/-!
C102: the JSON texts of policy objects, byte for byte.
-/
namespace Fpki.PolicyText

open Fpki.Json Fpki.Config Fpki.Calendar Fpki.Reflect Fpki.PolicyJson
open Fpki.Policy (Time Fields Cert Spct Env fixUtf8 ValidUtf8 normBytes)
open Fpki.Domain (asc star)

/-! ## Specification -/

mutual
/-- The objects in a value have numbers of 64 bits and times whose zones are whole minutes. -/
def ExactVal : Val V J → Prop
  | .obj o => Exact (shape o.kind) o.content
  | .ptr v => ExactVal v
  | .slice _ vs => ExactVals vs
  | .nilPtr => True
  | .other => True

def ExactVals : List (Val V J) → Prop
  | [] => True
  | v :: vs => ExactVal v ∧ ExactVals vs
end

/-- The fields that are read: those written, apart from what JSON does not show. -/
def Read (k : Kind) (c c' : V) : Prop := c' = norm (shape k) c

/-! ## Lemmas -/

theorem shape_wf (k : Kind) : wf (shape k) = true := by
  cases k <;> decide +kernel

theorem flats_map : ∀ l, flats l = l.map flat
  | [] => by rw [flats]; rfl
  | j :: l => by rw [flats, flats_map l]; rfl

theorem env_read (t : Bytes) (o : PolicyJson.Json J) (ht : fixUtf8 t = t) : fromJ (fix (flat (.env t o))) = finish t (typeJ (fix (flat o))) := by
  have hT : fixUtf8 (asc "T") = asc "T" := by decide +kernel
  have hO : fixUtf8 (asc "O") = asc "O" := by decide +kernel
  have iT : fieldIndex envNames (asc "T") = some 0 := by decide +kernel
  have iO : fieldIndex envNames (asc "O") = some 1 := by decide +kernel
  have e : fix (flat (.env t o)) = .obj [(asc "T", .str t), (asc "O", fix (flat o))] := by
    rw [flat]
    conv => lhs; unfold fix
    rw [fixMembers_map]
    have hs : fix (.str t) = .str t := by unfold fix; rw [ht]
    simp only [List.map_cons, List.map_nil, hT, hO, hs]
  rw [e]
  unfold fromJ envMembers
  rw [iT]
  simp only [decStr]
  unfold envMembers
  simp only [iO]
  unfold envMembers
  rfl

theorem ascii_tag (k : Kind) : fixUtf8 k.tag = k.tag := by cases k <;> decide +kernel
theorem ascii_star_tag (k : Kind) : fixUtf8 (star :: k.tag) = star :: k.tag := by cases k <;> decide +kernel
theorem ascii_list : fixUtf8 (asc "[]") = asc "[]" := by decide +kernel
theorem ascii_star_list : fixUtf8 (star :: asc "[]") = star :: asc "[]" := by decide +kernel

theorem typeJ_tag (j : J) (k : Kind) : typeJ j k.tag = (Reflect.inflate (shape k) j).map fun c => .obj ⟨k, c, none⟩ := by
  have h : inflateJ k.tag j = (Reflect.inflate (shape k) j).map fun c => .obj ⟨k, c, none⟩ := by
    unfold inflateJ
    rw [kindOf_tag]
  cases j <;> (unfold typeJ; rw [if_neg (tag_ne_list k)]; exact h)

/-- A tree without other numbers than integers. -/
theorem ints_env (t : Bytes) (o : PolicyJson.Json J) (h : Ints (flat o)) : Ints (flat (.env t o)) := by
  rw [flat]
  unfold Ints
  rw [intsMembers_iff]
  intro p hp
  simp only [List.mem_cons, List.not_mem_nil, or_false] at hp
  rcases hp with rfl | rfl
  · unfold Ints; exact True.intro
  · exact h

theorem target_back (v : Val V J)
    (hall : ∀ b vs js, v = .slice b vs → supportedAll vs = true → ExactVals vs → marshalAll lib vs = .ok js →
      (∀ j ∈ js, Ints (flat j)) ∧ ∃ vs', elemsJ (js.map fun j => fix (flat j)) = some vs' ∧ SameAll Read vs vs')
    (hs : supportedTarget v = true) (hx : ExactVal v) {t : Bytes} {o : PolicyJson.Json J} (hm : marshal lib v = .ok (t, o)) :
    known t = true ∧ known (star :: t) = false ∧ fixUtf8 t = t ∧ fixUtf8 (star :: t) = star :: t ∧ Ints (flat o) ∧ ∃ v', typeJ (fix (flat o)) t = some v' ∧ Same Read v v' := by
  cases v with
  | obj x =>
    obtain ⟨k, c, r⟩ := x
    unfold marshal at hm
    cases hp : lib.marshal k c with
    | none => rw [hp] at hm; cases hm
    | some p =>
      rw [hp] at hm
      cases hm
      have hx' : Exact (shape k) c := by simpa only [ExactVal] using hx
      obtain ⟨h1, h2⟩ := dec_enc (shape k) (shape_wf k) c p hx' hp
      refine ⟨known_tag k, known_star_tag k, ascii_tag k, ascii_star_tag k, by rw [flat]; exact h1, .obj ⟨k, norm (shape k) c, none⟩, ?_, .obj _ _ _ _ _ rfl⟩
      rw [typeJ_tag, flat]
      unfold Reflect.inflate
      rw [h2]
      rfl
  | ptr v => simp [supportedTarget] at hs
  | nilPtr => simp [supportedTarget] at hs
  | other => simp [supportedTarget] at hs
  | slice b vs =>
    unfold marshal at hm
    cases hj : marshalAll lib vs with
    | err => rw [hj] at hm; cases hm
    | panic => rw [hj] at hm; cases hm
    | ok js =>
      rw [hj] at hm
      cases hm
      have hs' : supportedAll vs = true := by simpa [supportedTarget] using hs
      have hx' : ExactVals vs := by simpa only [ExactVal] using hx
      obtain ⟨h0, vs', h1, h2⟩ := hall b vs js rfl hs' hx' hj
      refine ⟨known_list, known_star_list, ascii_list, ascii_star_list, ?_, .slice true vs', ?_, .slice _ _ _ _ h2⟩
      · rw [flat, flats_map]
        unfold Ints
        rw [intsElems_iff]
        intro j hj
        obtain ⟨i, hi, rfl⟩ := List.mem_map.1 hj
        exact h0 i hi
      · rw [flat, flats_map]
        unfold fix
        rw [fixElems_map, List.map_map]
        unfold typeJ
        rw [if_pos rfl]
        have : elemsJ (js.map (fix ∘ flat)) = some vs' := h1
        rw [this]
        rfl

mutual
theorem back : ∀ (v : Val V J), supported v = true → ExactVal v → ∀ (t : Bytes) (o : PolicyJson.Json J), marshal lib v = .ok (t, o) →
    Ints (flat (.env t o)) ∧ ∃ v', fromJ (fix (flat (.env t o))) = some v' ∧ Same Read v v'
  | .obj x, hs, hx, t, o, hm => by
    obtain ⟨h1, h2, h3, h4, h5, v', h6, h7⟩ := target_back (.obj x) (by intro b vs js h; cases h) rfl hx hm
    exact ⟨ints_env t o h5, v', by rw [env_read t o h3]; unfold finish; rw [if_pos h1, h6], h7⟩
  | .slice b vs, hs, hx, t, o, hm => by
    obtain ⟨h1, h2, h3, h4, h5, v', h6, h7⟩ := target_back (.slice b vs)
      (by intro b' vs' js h hs' hx' hj; cases h; exact back_all vs hs' hx' js hj) (by simpa [supported, supportedTarget] using hs) hx hm
    exact ⟨ints_env t o h5, v', by rw [env_read t o h3]; unfold finish; rw [if_pos h1, h6], h7⟩
  | .nilPtr, hs, _, _, _, _ => by simp [supported] at hs
  | .other, hs, _, _, _, _ => by simp [supported] at hs
  | .ptr v, hs, hx, t, o, hm => by
    unfold marshal at hm
    have hst : supportedTarget v = true := by simpa [supported] using hs
    have hxv : ExactVal v := by simpa only [ExactVal] using hx
    cases hv : marshal lib v with
    | err => rw [hv] at hm; cases hm
    | panic => rw [hv] at hm; cases hm
    | ok x =>
      obtain ⟨t', o'⟩ := x
      rw [hv] at hm
      cases hm
      have hall : ∀ b vs js, v = .slice b vs → supportedAll vs = true → ExactVals vs → marshalAll lib vs = .ok js →
          (∀ j ∈ js, Ints (flat j)) ∧ ∃ vs', elemsJ (js.map fun j => fix (flat j)) = some vs' ∧ SameAll Read vs vs' := by
        cases v with
        | slice b vs => intro b' vs' js h hs' hx' hj; cases h; exact back_all vs hs' hx' js hj
        | obj x => intro b vs js h; cases h
        | ptr v => intro b vs js h; cases h
        | nilPtr => intro b vs js h; cases h
        | other => intro b vs js h; cases h
      obtain ⟨h1, h2, h3, h4, h5, v', h6, h7⟩ := target_back v hall hst hxv hv
      refine ⟨ints_env _ o h5, .ptr v', ?_, .ptr _ _ h7⟩
      rw [env_read _ o h4]
      unfold finish
      rw [h2, if_neg (by simp)]
      dsimp only
      rw [if_pos ⟨rfl, h1⟩, h6]
      rfl

theorem back_all : ∀ (vs : List (Val V J)), supportedAll vs = true → ExactVals vs → ∀ js, marshalAll lib vs = .ok js →
    (∀ j ∈ js, Ints (flat j)) ∧ ∃ vs', elemsJ (js.map fun j => fix (flat j)) = some vs' ∧ SameAll Read vs vs'
  | [], _, _, js, hm => by
    unfold marshalAll at hm
    cases hm
    exact ⟨(fun j hj => by cases hj), [], by unfold elemsJ; rfl, .nil⟩
  | v :: vs, hs, hx, js, hm => by
    unfold marshalAll at hm
    simp only [supportedAll, Bool.and_eq_true] at hs
    simp only [ExactVals] at hx
    cases hv : marshal lib v with
    | err => rw [hv] at hm; cases hm
    | panic => rw [hv] at hm; cases hm
    | ok x =>
      obtain ⟨t, o⟩ := x
      rw [hv] at hm
      dsimp only at hm
      cases hr : marshalAll lib vs with
      | err => rw [hr] at hm; cases hm
      | panic => rw [hr] at hm; cases hm
      | ok js' =>
        rw [hr] at hm
        cases hm
        obtain ⟨a0, v', a1, a2⟩ := back v hs.1 hx.1 t o hv
        obtain ⟨b0, vs', b1, b2⟩ := back_all vs hs.2 hx.2 js' hr
        refine ⟨?_, v' :: vs', ?_, .cons _ _ _ _ a2 b2⟩
        · intro j hj
          rcases List.mem_cons.1 hj with rfl | hj
          · exact a0
          · exact b0 j hj
        · rw [List.map_cons]
          unfold elemsJ
          rw [a1, b1]
end

/-! ## C102 -/

/-- C102: the bytes that `ToJSON` writes for a supported value are read by `FromJSON` as the same value, with the fields as written. -/
theorem C102_roundtrip_partial (v : Val V J) (hs : supported v = true) (hx : ExactVal v) (x : Bytes) (h : toText v = .ok x) :
    ∃ v', fromText x = some v' ∧ Same Read v v' := by
  unfold toText toJSON at h
  cases hm : marshal lib v with
  | err => rw [hm] at h; cases h
  | panic => rw [hm] at h; cases h
  | ok y =>
    obtain ⟨t, o⟩ := y
    rw [hm] at h
    cases h
    obtain ⟨h1, v', h2, h3⟩ := back v hs hx t o hm
    refine ⟨v', ?_, h3⟩
    unfold fromText
    rw [parse_render _ h1]
    exact h2

/-! ### Certificates -/

/-- The times of a certificate. -/
def times (c : Cert) : List Time := [c.notBefore, c.notAfter, c.timeStamp] ++ c.spcts.map (·.addedTS)

/-- The numbers of a certificate. -/
def ints (c : Cert) : List Int := [c.version, c.serial, c.publicKeyAlgorithm, c.signatureAlgorithm] ++ c.spcts.map (·.version)

/-- A Go certificate (its numbers have 64 bits) with time zones of whole minutes. -/
structure ExactCert (c : Cert) : Prop where
  ints : ∀ i ∈ ints c, -(2 ^ 63) ≤ i ∧ i < 2 ^ 63
  times : ∀ t ∈ times c, t.off % 60 = 0

/-- The field as it is read again. -/
def field (s : Shape) (v : V) : V := if isEmpty v then zero s else norm s v

theorem norms_cons (n : Bytes) (s : Shape) (fs) (v : V) (vs) : norms ((n, true, s) :: fs) (v :: vs) = field s v :: norms fs vs := by
  rw [norms, Bool.true_and]
  rfl

theorem norms_nil (vs) : norms [] vs = [] := by unfold norms; rfl

theorem field_int (i : Int) : intOf (some (field .int (.int i))) = i := by
  unfold field
  split
  · rename_i h
    have : i = 0 := by simpa [isEmpty] using h
    rw [this]
    rfl
  · simp only [norm, intOf]

theorem field_bool (b : Bool) : boolOf (some (field .bool (.bool b))) = b := by
  cases b <;> simp [field, isEmpty, zero, norm, boolOf]

theorem field_str (s : Bytes) : strOf (some (field .str (.str s))) = fixUtf8 s := by
  unfold field
  split
  · rename_i h
    have : s = [] := by simpa [isEmpty] using h
    subst this
    rfl
  · simp only [norm, strOf]

theorem field_bytes (b : Option Bytes) : bytesOf (some (field .bytes (.bytes b))) = normBytes b := by
  cases b with
  | none => simp [field, isEmpty, zero, bytesOf, normBytes]
  | some b =>
    cases b with
    | nil => simp [field, isEmpty, zero, bytesOf, normBytes]
    | cons c b => simp [field, isEmpty, norm, bytesOf, normBytes]

theorem field_time (t : Time) : timeOf (some (field .time (.time t))) = t.norm := by
  simp [field, isEmpty, norm, timeOf]

theorem field_strs (l : List Bytes) : strsOf (some (field (.slice .str) (.slice (l.map .str)))) = l.map fixUtf8 := by
  cases l with
  | nil => simp [field, isEmpty, zero, strsOf, listOf]
  | cons a l =>
    simp [field, isEmpty, norm, strsOf, listOf]
    exact ⟨rfl, fun _ _ => rfl⟩

theorem listOf_struct (l : List V) : listOf (some (.struct l)) = l := rfl

theorem spct_read (s : Spct) : spctOf (norm (.struct timestampFields) (spctV s)) = s.norm := by
  unfold spctV
  rw [norm]
  simp only [timestampFields, baseFields, List.cons_append, List.nil_append, norms_cons, norms_nil, spctOf, listOf_struct, List.getElem?_cons_zero, List.getElem?_cons_succ, field_int, field_bytes, field_time]
  rfl

theorem field_spcts (l : List Spct) : (listOf (some (field (.slice (.struct timestampFields)) (.slice (l.map spctV))))).map spctOf = l.map Spct.norm := by
  cases l with
  | nil => simp [field, isEmpty, zero, listOf]
  | cons a l =>
    unfold field
    rw [if_neg (by simp [isEmpty]), norm]
    unfold listOf
    dsimp only
    rw [List.map_map, List.map_map]
    apply List.map_congr_left
    intro x _
    exact spct_read x

theorem attributes_read (a : PolicyAttr.Attributes) : attributesOf (some (field attributesShape (attributesV a))) = Policy.normAttr a := by
  unfold field attributesV
  rw [if_neg (by simp [isEmpty]), attributesShape, norm]
  simp only [norms_cons, norms_nil, attributesOf, listOf_struct, List.getElem?_cons_zero, List.getElem?_cons_succ, field_strs]
  rfl

/-- The certificate that is made from the fields read. -/
theorem cert_read (c : Cert) : certOf (norm certShape (certV c)) = c.norm := by
  unfold certV certShape
  rw [norm]
  simp only [certFields, documentFields, baseFields, fieldsV, List.cons_append, List.nil_append, norms_cons, norms_nil, certOf, fieldsOfV, listOf_struct, List.getElem?_cons_zero, List.getElem?_cons_succ,
    field_int, field_bytes, field_time, field_str, field_bool, attributes_read, field_spcts]
  rfl

theorem exacts_cons (n : Bytes) (b : Bool) (s : Shape) (fs) (v : V) (vs) : Exacts ((n, b, s) :: fs) (v :: vs) ↔ Exact s v ∧ Exacts fs vs := by
  rw [Exacts]

theorem spct_exact (s : Spct) (h1 : -(2 ^ 63) ≤ s.version ∧ s.version < 2 ^ 63) (h2 : s.addedTS.off % 60 = 0) : Exact (.struct timestampFields) (spctV s) := by
  unfold spctV
  rw [Exact]
  simp only [timestampFields, baseFields, List.cons_append, List.nil_append, exacts_cons, Exact, Exacts, and_true, true_and]
  exact ⟨h1, h2⟩

theorem cert_exact (c : Cert) (h : ExactCert c) : Exact certShape (certV c) := by
  have hstr : ∀ l : List Bytes, ∀ v ∈ l.map V.str, Exact .str v := by
    intro l v hv
    obtain ⟨s, _, rfl⟩ := List.mem_map.1 hv
    rw [Exact]
    exact True.intro
  have ha : Exact attributesShape (attributesV c.attributes) := by
    unfold attributesV attributesShape
    rw [Exact]
    simp only [exacts_cons, Exact, Exacts, and_true]
    exact ⟨hstr _, hstr _, hstr _, hstr _⟩
  unfold certV certShape
  rw [Exact]
  simp only [certFields, documentFields, baseFields, fieldsV, List.cons_append, List.nil_append, exacts_cons, Exact, Exacts, and_true, true_and]
  refine ⟨h.ints _ (by simp [ints]), h.ints _ (by simp [ints]), h.times _ (by simp [times]), h.times _ (by simp [times]), h.ints _ (by simp [ints]), h.ints _ (by simp [ints]),
    h.times _ (by simp [times]), ha, ?_⟩
  intro v hv
  obtain ⟨s, hs, rfl⟩ := List.mem_map.1 hv
  exact spct_exact s (h.ints _ (by simp only [ints, List.mem_append, List.mem_map]; exact .inr ⟨s, hs, rfl⟩)) (h.times _ (by simp only [times, List.mem_append, List.mem_map]; exact .inr ⟨s, hs, rfl⟩))

theorem certText_eq (c : Cert) : certText c = (encJ certShape (certV c)).map fun j => render (.obj [(asc "T", .str (asc "*pc")), (asc "O", j)]) := by
  have htag : star :: Kind.tag .pc = asc "*pc" := by decide +kernel
  unfold certText toText toJSON
  simp only [marshal]
  have : lib.marshal Kind.pc (certV c) = encJ certShape (certV c) := rfl
  rw [this]
  cases encJ certShape (certV c) with
  | none => rfl
  | some j =>
    dsimp only [Option.map_some]
    rw [flat, flat, htag]

/-- C102: the text of a certificate is read as that certificate (texts with bytes that are not UTF-8 are changed, nil and empty lists are the same, a time is its instant and its zone). -/
theorem C102_certificate_partial (c : Cert) (h : ExactCert c) (x : Bytes) (hx : certText c = some x) : readCert x = some c.norm := by
  have hx' : toText (.ptr (.obj ⟨.pc, certV c, none⟩)) = .ok x := by
    unfold certText at hx
    split at hx
    · rename_i y hy
      cases hx
      exact hy
    · cases hx
  obtain ⟨v', h1, h2⟩ := C102_roundtrip_partial _ (by rfl) (by simp only [ExactVal]; exact cert_exact c h) x hx'
  cases h2
  rename_i w h2
  cases h2
  rename_i c' r' h2
  unfold readCert
  rw [h1]
  have h2 : c' = norm certShape (certV c) := h2
  dsimp only
  rw [h2, cert_read]

/-! ### Everything that is read -/

/-- A time that can be written and read again. -/
def Plain (t : Time) : Prop := t.off % 60 = 0 ∧ timeText t ≠ none

mutual
/-- The objects in a value have numbers of 64 bits and times that can be written and read again. -/
def PlainVal : Val V J → Prop
  | .obj o => Fits Plain (shape o.kind) o.content
  | .ptr v => PlainVal v
  | .slice _ vs => PlainVals vs
  | .nilPtr => True
  | .other => True

def PlainVals : List (Val V J) → Prop
  | [] => True
  | v :: vs => PlainVal v ∧ PlainVals vs
end

theorem plain_zero : Plain zeroTime := ⟨rfl, by decide +kernel⟩

theorem plain_parse (x : Bytes) (t : Time) (h : parseTime x = some t) : Plain t := ⟨parseTime_whole h, parseTime_writes h⟩

theorem inflateJ_plain {t : Bytes} {j : J} {v : Val V J} (h : inflateJ t j = some v) : PlainVal v ∧ supportedTarget v = true := by
  unfold inflateJ at h
  split at h
  · cases h
  · rename_i k _
    unfold Reflect.inflate at h
    cases hd : decJ (shape k) (zero (shape k)) j with
    | none => rw [hd] at h; cases h
    | some c =>
      rw [hd] at h
      cases h
      refine ⟨?_, by simp [supportedTarget]⟩
      rw [PlainVal]
      exact dec_fits Plain plain_zero plain_parse (shape k) _ j c (zero_fits Plain plain_zero _) hd

theorem finish_plain {t : Bytes} {f : Bytes → Option (Val V J)} (hf : ∀ t v, f t = some v → PlainVal v ∧ supportedTarget v = true) {v : Val V J} (h : finish t f = some v) :
    PlainVal v ∧ supported v = true := by
  have ht : ∀ v : Val V J, supportedTarget v = true → supported v = true := by
    intro v hv
    cases v <;> simp_all [supported, supportedTarget]
  unfold finish at h
  split at h
  · exact ⟨(hf t v h).1, ht v (hf t v h).2⟩
  · split at h
    · split at h
      · rename_i c t' _ _
        cases hft : f t' with
        | none => rw [hft] at h; cases h
        | some w =>
          rw [hft] at h
          cases h
          refine ⟨?_, ?_⟩
          · rw [PlainVal]; exact (hf t' w hft).1
          · rw [supported]; exact (hf t' w hft).2
      · cases h
    · cases h

mutual
theorem fromJ_plain : ∀ (j : J) (v : Val V J), fromJ j = some v → PlainVal v ∧ supported v = true
  | .obj l, v, h => by
    unfold fromJ at h
    exact env_plain l [] (fun _ => none) v (fun t v h => by cases h) h
  | .null, v, h => by unfold fromJ at h; cases h
  | .bool _, v, h => by unfold fromJ at h; cases h
  | .num _, v, h => by unfold fromJ at h; cases h
  | .str _, v, h => by unfold fromJ at h; cases h
  | .arr _, v, h => by unfold fromJ at h; cases h

theorem env_plain : ∀ (l : List (Bytes × J)) (t : Bytes) (f : Bytes → Option (Val V J)) (v : Val V J), (∀ t v, f t = some v → PlainVal v ∧ supportedTarget v = true) →
    envMembers l t f = some v → PlainVal v ∧ supported v = true
  | [], t, f, v, hf, h => by
    unfold envMembers at h
    exact finish_plain hf h
  | (k, j) :: l, t, f, v, hf, h => by
    unfold envMembers at h
    split at h
    · exact env_plain l t f v hf h
    · split at h
      · cases h
      · rename_i t' _
        exact env_plain l t' f v hf h
    · exact env_plain l t (typeJ j) v (fun t v h => typeJ_plain j t v h) h

theorem typeJ_plain : ∀ (j : J) (t : Bytes) (v : Val V J), typeJ j t = some v → PlainVal v ∧ supportedTarget v = true
  | .arr l, t, v, h => by
    unfold typeJ at h
    split at h
    · cases he : elemsJ l with
      | none => rw [he] at h; cases h
      | some vs =>
        rw [he] at h
        cases h
        obtain ⟨h1, h2⟩ := elems_plain l vs he
        exact ⟨by rw [PlainVal]; exact h1, by rw [supportedTarget]; exact h2⟩
    · exact inflateJ_plain h
  | .null, t, v, h => by
    unfold typeJ at h
    split at h
    · cases h
      exact ⟨by rw [PlainVal, PlainVals]; exact True.intro, by rw [supportedTarget, supportedAll]⟩
    · exact inflateJ_plain h
  | .bool _, t, v, h => by
    unfold typeJ at h
    split at h
    · cases h
    · exact inflateJ_plain h
  | .num _, t, v, h => by
    unfold typeJ at h
    split at h
    · cases h
    · exact inflateJ_plain h
  | .str _, t, v, h => by
    unfold typeJ at h
    split at h
    · cases h
    · exact inflateJ_plain h
  | .obj _, t, v, h => by
    unfold typeJ at h
    split at h
    · cases h
    · exact inflateJ_plain h

theorem elems_plain : ∀ (l : List J) (vs : List (Val V J)), elemsJ l = some vs → PlainVals vs ∧ supportedAll vs = true
  | [], vs, h => by
    unfold elemsJ at h
    cases h
    exact ⟨by rw [PlainVals]; exact True.intro, by rw [supportedAll]⟩
  | j :: l, vs, h => by
    unfold elemsJ at h
    split at h
    · rename_i v vs' hv hvs
      cases h
      obtain ⟨a1, a2⟩ := fromJ_plain j v hv
      obtain ⟨b1, b2⟩ := elems_plain l vs' hvs
      exact ⟨by rw [PlainVals]; exact ⟨a1, b1⟩, by rw [supportedAll, a2, b2]; rfl⟩
    · cases h
end

mutual
theorem plain_exact : ∀ v : Val V J, PlainVal v → ExactVal v
  | .obj o, h => by
    rw [PlainVal] at h
    rw [ExactVal]
    exact exact_of_fits Plain (fun _ h => h.1) _ _ h
  | .ptr v, h => by
    rw [PlainVal] at h
    rw [ExactVal]
    exact plain_exact v h
  | .slice _ vs, h => by
    rw [PlainVal] at h
    rw [ExactVal]
    exact plains_exact vs h
  | .nilPtr, _ => by rw [ExactVal]; exact True.intro
  | .other, _ => by rw [ExactVal]; exact True.intro

theorem plains_exact : ∀ vs : List (Val V J), PlainVals vs → ExactVals vs
  | [], _ => by rw [ExactVals]; exact True.intro
  | v :: vs, h => by
    rw [PlainVals] at h
    rw [ExactVals]
    exact ⟨plain_exact v h.1, plains_exact vs h.2⟩
end

mutual
theorem plain_target : ∀ v : Val V J, PlainVal v → supportedTarget v = true → ∃ x, marshal lib v = .ok x
  | .obj ⟨k, c, r⟩, h, _ => by
    rw [PlainVal] at h
    obtain ⟨j, hj⟩ := fits_writes Plain (fun _ h => h.2) _ _ h
    unfold marshal
    have : lib.marshal k c = some j := hj
    rw [this]
    exact ⟨_, rfl⟩
  | .slice b vs, h, hs => by
    rw [PlainVal] at h
    rw [supportedTarget] at hs
    obtain ⟨js, hjs⟩ := plain_all vs h hs
    unfold marshal
    rw [hjs]
    exact ⟨_, rfl⟩
  | .ptr v, _, hs => by simp [supportedTarget] at hs
  | .nilPtr, _, hs => by simp [supportedTarget] at hs
  | .other, _, hs => by simp [supportedTarget] at hs

theorem plain_writes : ∀ v : Val V J, PlainVal v → supported v = true → ∃ x, marshal lib v = .ok x
  | .obj o, h, _ => plain_target (.obj o) h (by simp [supportedTarget])
  | .slice b vs, h, hs => by
    rw [supported] at hs
    rw [PlainVal] at h
    obtain ⟨js, hjs⟩ := plain_all vs h hs
    unfold marshal
    rw [hjs]
    exact ⟨_, rfl⟩
  | .ptr v, h, hs => by
    rw [PlainVal] at h
    rw [supported] at hs
    obtain ⟨x, hx⟩ := plain_target v h hs
    unfold marshal
    rw [hx]
    exact ⟨_, rfl⟩
  | .nilPtr, _, hs => by simp [supported] at hs
  | .other, _, hs => by simp [supported] at hs

theorem plain_all : ∀ vs : List (Val V J), PlainVals vs → supportedAll vs = true → ∃ js, marshalAll lib vs = .ok js
  | [], _, _ => ⟨[], by unfold marshalAll; rfl⟩
  | v :: vs, h, hs => by
    rw [PlainVals] at h
    simp only [supportedAll, Bool.and_eq_true] at hs
    obtain ⟨x, hx⟩ := plain_writes v h.1 hs.1
    obtain ⟨js, hjs⟩ := plain_all vs h.2 hs.2
    unfold marshalAll
    rw [hx, hjs]
    exact ⟨_, rfl⟩
end

/-- C102: whatever `FromJSON` reads, from any bytes, can be written again with `ToJSON`, and what is read then is the same (strings as they are read). -/
theorem C102_again (x : Bytes) (v : Val V J) (h : fromText x = some v) : ∃ y v', toText v = .ok y ∧ fromText y = some v' ∧ Same Read v v' := by
  unfold fromText at h
  split at h
  · cases h
  · rename_i j _
    obtain ⟨h1, h2⟩ := fromJ_plain j v h
    obtain ⟨w, hw⟩ := plain_writes v h1 h2
    have ht : ∃ y, toText v = .ok y := by
      unfold toText toJSON
      rw [hw]
      exact ⟨_, rfl⟩
    obtain ⟨y, hy⟩ := ht
    obtain ⟨v', h3, h4⟩ := C102_roundtrip_partial v h2 (plain_exact v h1) y hy
    exact ⟨y, v', hy, h3, h4⟩

/-! ### The bytes of certificates -/

theorem quote_nil {a : Bytes} (h : quote a = quote []) : a = [] := by
  cases a with
  | nil => rfl
  | cons b t =>
    exfalso
    have hq : quoteFrom 0 0 (b :: t) = [] := by
      unfold quote at h
      have h := List.append_cancel_right (List.cons.inj h).2
      rw [h]
      rfl
    have hne : quoteAscii b ≠ [] := by
      unfold quoteAscii
      repeat' split
      all_goals simp
    unfold quoteFrom at hq
    repeat' split at hq
    all_goals simp_all

theorem quote_empty {a b : Bytes} (h : quote a = quote b) : a.isEmpty = b.isEmpty := by
  cases a with
  | nil => rw [quote_nil h.symm]
  | cons x a =>
    cases b with
    | nil => cases quote_nil h
    | cons y b => rfl

/-- The same bytes are written. -/
def Alike (s : Shape) (v w : V) : Prop := (encJ s v).map render = (encJ s w).map render

/-- The same bytes are written for the fields. -/
def AlikeFields : List (Bytes × Bool × Shape) → List V → List V → Prop
  | [], [], [] => True
  | (_, om, s) :: fs, v :: vs, w :: ws => isEmpty v = isEmpty w ∧ ((om && isEmpty v) = false → Alike s v w) ∧ AlikeFields fs vs ws
  | _, _, _ => False

theorem members_alike : ∀ (fs : List (Bytes × Bool × Shape)) (vs ws : List V), AlikeFields fs vs ws →
    (encFields fs vs).map (fun l => (l.isEmpty, renderMembers l)) = (encFields fs ws).map (fun l => (l.isEmpty, renderMembers l))
  | [], [], [], _ => rfl
  | (n, om, s) :: fs, v :: vs, w :: ws, h => by
    unfold AlikeFields at h
    obtain ⟨h1, h2, h3⟩ := h
    have ih := members_alike fs vs ws h3
    rw [encFields, encFields, ← h1]
    cases hb : om && isEmpty v with
    | true => simpa using ih
    | false =>
      have h2 := h2 hb
      unfold Alike at h2
      simp only [Bool.false_eq_true, if_false]
      cases e1 : encJ s v with
      | none =>
        cases e2 : encJ s w with
        | none => rfl
        | some j => rw [e1, e2] at h2; cases h2
      | some j =>
        cases e2 : encJ s w with
        | none => rw [e1, e2] at h2; cases h2
        | some j' =>
          rw [e1, e2] at h2
          have hj : render j = render j' := Option.some.inj h2
          cases r1 : encFields fs vs with
          | none =>
            cases r2 : encFields fs ws with
            | none => rfl
            | some l => rw [r1, r2] at ih; cases ih
          | some l =>
            cases r2 : encFields fs ws with
            | none => rw [r1, r2] at ih; cases ih
            | some l' =>
              rw [r1, r2] at ih
              simp only [Option.map_some, Option.some.injEq, Prod.mk.injEq] at ih ⊢
              refine ⟨rfl, ?_⟩
              rw [renderMembers, renderMembers, hj, ih.1, ih.2]
  | [], [], _ :: _, h => by unfold AlikeFields at h; exact h.elim
  | [], _ :: _, _, h => by unfold AlikeFields at h; exact h.elim
  | (_, _, _) :: _, [], _, h => by unfold AlikeFields at h; exact h.elim
  | (_, _, _) :: _, _ :: _, [], h => by unfold AlikeFields at h; exact h.elim

theorem struct_alike (fs : List (Bytes × Bool × Shape)) (vs ws : List V) (h : AlikeFields fs vs ws) : Alike (.struct fs) (.struct vs) (.struct ws) := by
  have h := members_alike fs vs ws h
  unfold Alike
  rw [encJ, encJ]
  cases r1 : encFields fs vs with
  | none =>
    cases r2 : encFields fs ws with
    | none => rfl
    | some l => rw [r1, r2] at h; cases h
  | some l =>
    cases r2 : encFields fs ws with
    | none => rw [r1, r2] at h; cases h
    | some l' =>
      rw [r1, r2] at h
      simp only [Option.map_some, Option.some.injEq, Prod.mk.injEq] at h ⊢
      rw [render, render, h.2]

theorem elems_alike {α : Type} (s : Shape) (f : α → V) (g : α → α → Prop) (hg : ∀ a b, g a b → Alike s (f a) (f b)) : ∀ (l l' : List α), List.Forall₂ g l l' →
    (encElems (encJ s) (l.map f)).map (fun l => (l.isEmpty, renderElems l)) = (encElems (encJ s) (l'.map f)).map (fun l => (l.isEmpty, renderElems l))
  | _, _, .nil => rfl
  | a :: l, b :: l', .cons h1 h3 => by
    have ih := elems_alike s f g hg l l' h3
    have h2 := hg a b h1
    unfold Alike at h2
    rw [List.map_cons, List.map_cons, encElems, encElems]
    cases e1 : encJ s (f a) with
    | none =>
      cases e2 : encJ s (f b) with
      | none => rfl
      | some j => rw [e1, e2] at h2; cases h2
    | some j =>
      cases e2 : encJ s (f b) with
      | none => rw [e1, e2] at h2; cases h2
      | some j' =>
        rw [e1, e2] at h2
        have hj : render j = render j' := Option.some.inj h2
        cases r1 : encElems (encJ s) (l.map f) with
        | none =>
          cases r2 : encElems (encJ s) (l'.map f) with
          | none => rfl
          | some l => rw [r1, r2] at ih; cases ih
        | some l =>
          cases r2 : encElems (encJ s) (l'.map f) with
          | none => rw [r1, r2] at ih; cases ih
          | some l' =>
            rw [r1, r2] at ih
            simp only [Option.map_some, Option.some.injEq, Prod.mk.injEq] at ih ⊢
            refine ⟨rfl, ?_⟩
            rw [renderElems, renderElems, hj, ih.1, ih.2]

theorem slice_alike {α : Type} (s : Shape) (f : α → V) (g : α → α → Prop) (hg : ∀ a b, g a b → Alike s (f a) (f b)) (l l' : List α) (h : List.Forall₂ g l l') :
    isEmpty (.slice (l.map f)) = isEmpty (.slice (l'.map f)) ∧ Alike (.slice s) (.slice (l.map f)) (.slice (l'.map f)) := by
  refine ⟨by cases h <;> rfl, ?_⟩
  have h := elems_alike s f g hg l l' h
  unfold Alike
  rw [encJ, encJ]
  cases r1 : encElems (encJ s) (l.map f) with
  | none =>
    cases r2 : encElems (encJ s) (l'.map f) with
    | none => rfl
    | some l => rw [r1, r2] at h; cases h
  | some l =>
    cases r2 : encElems (encJ s) (l'.map f) with
    | none => rw [r1, r2] at h; cases h
    | some l' =>
      rw [r1, r2] at h
      simp only [Option.map_some, Option.some.injEq, Prod.mk.injEq] at h ⊢
      rw [render, render, h.2]

theorem str_alike {a b : Bytes} (h : quote a = quote b) : isEmpty (.str a) = isEmpty (.str b) ∧ Alike .str (.str a) (.str b) := by
  refine ⟨quote_empty h, ?_⟩
  unfold Alike
  rw [encJ, encJ, Option.map_some, Option.map_some, render, render, h]

theorem bytes_alike {a b : Option Bytes} (h : normBytes a = normBytes b) : isEmpty (.bytes a) = isEmpty (.bytes b) ∧ (isEmpty (.bytes a) = false → Alike .bytes (.bytes a) (.bytes b)) := by
  match a, b with
  | none, none => exact ⟨rfl, fun _ => rfl⟩
  | none, some [] => exact ⟨rfl, fun h => by cases h⟩
  | none, some (_ :: _) => cases h
  | some [], none => exact ⟨rfl, fun h => by cases h⟩
  | some (_ :: _), none => cases h
  | some [], some [] => exact ⟨rfl, fun h => by cases h⟩
  | some [], some (_ :: _) => cases h
  | some (_ :: _), some [] => cases h
  | some (x :: a), some (y :: b) =>
    have h : some (x :: a) = some (y :: b) := h
    rw [h]
    exact ⟨rfl, fun _ => rfl⟩

theorem time_alike {a b : Time} (h : a.norm = b.norm) : Alike .time (.time a) (.time b) := by
  have h1 : a.ns = b.ns := show a.norm.ns = b.norm.ns by rw [h]
  have h2 : a.off = b.off := show a.norm.off = b.norm.off by rw [h]
  unfold Alike
  rw [encJ, encJ, timeText_shown a b (by rw [h1, h2]) (by rw [h2]) (by rw [h2])]

theorem strs_alike {a b : List Bytes} (h : a.map quote = b.map quote) :
    isEmpty (.slice (a.map .str)) = isEmpty (.slice (b.map .str)) ∧ Alike (.slice .str) (.slice (a.map .str)) (.slice (b.map .str)) :=
  slice_alike .str .str (fun a b => quote a = quote b) (fun _ _ h => (str_alike h).2) a b (by
    have := congrArg (List.Forall₂ (· = ·) (a.map quote)) h
    rw [List.forall₂_eq_eq_eq] at this
    have h' : List.Forall₂ (· = ·) (a.map quote) (b.map quote) := by rw [h]; exact List.forall₂_refl _
    rwa [List.forall₂_map_left_iff, List.forall₂_map_right_iff] at h')

theorem spct_alike {a b : Spct} (h : a.norm = b.norm) : Alike (.struct timestampFields) (spctV a) (spctV b) := by
  have h1 : a.version = b.version := show a.norm.version = b.norm.version by rw [h]
  have h2 := bytes_alike (show a.norm.logID = b.norm.logID by rw [h])
  have h3 : a.addedTS.norm = b.addedTS.norm := show a.norm.addedTS = b.norm.addedTS by rw [h]
  have h4 := bytes_alike (show a.norm.signature = b.norm.signature by rw [h])
  unfold spctV
  apply struct_alike
  simp only [timestampFields, baseFields, List.cons_append, List.nil_append, AlikeFields, and_true, Bool.true_and]
  exact ⟨by rw [h1], fun _ => by rw [h1]; rfl, h2.1, h2.2, rfl, fun _ => time_alike h3, h4.1, h4.2⟩

theorem forall₂_of_map {α β : Type} {f : α → β} {a b : List α} (h : a.map f = b.map f) : List.Forall₂ (fun x y => f x = f y) a b := by
  have h' : List.Forall₂ (· = ·) (a.map f) (b.map f) := by rw [h]; exact List.forall₂_refl _
  rwa [List.forall₂_map_left_iff, List.forall₂_map_right_iff] at h'

theorem cert_alike {a b : Cert} (h : a.written = b.written) : Alike certShape (certV a) (certV b) := by
  have hn := Policy.norm_of_written h
  have g : ∀ {α : Type} (f : Cert → α), f a.written = f b.written := fun f => congrArg f h
  have k : ∀ {α : Type} (f : Cert → α), f a.norm = f b.norm := fun f => congrArg f hn
  have i1 : a.version = b.version := k (fun c => c.version)
  have i2 : a.serial = b.serial := k (fun c => c.serial)
  have i3 : a.publicKeyAlgorithm = b.publicKeyAlgorithm := k (fun c => c.publicKeyAlgorithm)
  have i4 : a.signatureAlgorithm = b.signatureAlgorithm := k (fun c => c.signatureAlgorithm)
  have i5 : a.canIssue = b.canIssue := k (fun c => c.canIssue)
  have i6 : a.canOwn = b.canOwn := k (fun c => c.canOwn)
  have s1 := str_alike (g (fun c => c.domain) : quote a.domain = quote b.domain)
  have t1 : a.notBefore.norm = b.notBefore.norm := k (fun c => c.notBefore)
  have t2 : a.notAfter.norm = b.notAfter.norm := k (fun c => c.notAfter)
  have t3 : a.timeStamp.norm = b.timeStamp.norm := k (fun c => c.timeStamp)
  have b1 := bytes_alike (k (fun c => c.publicKey) : normBytes a.publicKey = normBytes b.publicKey)
  have b2 := bytes_alike (k (fun c => c.ownerSignature) : normBytes a.ownerSignature = normBytes b.ownerSignature)
  have b3 := bytes_alike (k (fun c => c.ownerHash) : normBytes a.ownerHash = normBytes b.ownerHash)
  have b4 := bytes_alike (k (fun c => c.issuerSignature) : normBytes a.issuerSignature = normBytes b.issuerSignature)
  have b5 := bytes_alike (k (fun c => c.issuerHash) : normBytes a.issuerHash = normBytes b.issuerHash)
  have l1 := strs_alike (g (fun c => c.attributes.allowedCAs) : a.attributes.allowedCAs.map quote = b.attributes.allowedCAs.map quote)
  have l2 := strs_alike (g (fun c => c.attributes.allowed) : a.attributes.allowed.map quote = b.attributes.allowed.map quote)
  have l3 := strs_alike (g (fun c => c.attributes.disallowed) : a.attributes.disallowed.map quote = b.attributes.disallowed.map quote)
  have l4 := strs_alike (g (fun c => c.attributes.excluded) : a.attributes.excluded.map quote = b.attributes.excluded.map quote)
  have p1 := slice_alike (.struct timestampFields) spctV (fun x y => x.norm = y.norm) (fun _ _ h => spct_alike h) a.spcts b.spcts
    (forall₂_of_map (k (fun c => c.spcts) : a.spcts.map Spct.norm = b.spcts.map Spct.norm))
  have ha : Alike attributesShape (attributesV a.attributes) (attributesV b.attributes) := by
    unfold attributesV attributesShape
    apply struct_alike
    simp only [AlikeFields, and_true, Bool.true_and]
    exact ⟨l1.1, fun _ => l1.2, l2.1, fun _ => l2.2, l3.1, fun _ => l3.2, l4.1, fun _ => l4.2⟩
  unfold certV certShape
  apply struct_alike
  simp only [certFields, documentFields, baseFields, fieldsV, List.cons_append, List.nil_append, AlikeFields, and_true, Bool.true_and, i1, i2, i3, i4, i5, i6]
  exact ⟨trivial, fun _ => rfl, trivial, fun _ => rfl, s1.1, fun _ => s1.2, rfl, fun _ => time_alike t1, rfl, fun _ => time_alike t2, trivial, fun _ => rfl, trivial, fun _ => rfl,
    b1.1, b1.2, trivial, fun _ => rfl, trivial, fun _ => rfl, rfl, fun _ => time_alike t3, rfl, fun _ => ha, b2.1, b2.2, b3.1, b3.2, b4.1, b4.2, b5.1, b5.2, p1.1, fun _ => p1.2⟩

theorem text_of_alike {a b : Cert} (hr : Alike certShape (certV a) (certV b)) : certText a = certText b := by
  unfold Alike at hr
  rw [certText_eq, certText_eq]
  cases e1 : encJ certShape (certV a) with
  | none =>
    cases e2 : encJ certShape (certV b) with
    | none => rfl
    | some j => rw [e1, e2] at hr; cases hr
  | some j =>
    cases e2 : encJ certShape (certV b) with
    | none => rw [e1, e2] at hr; cases hr
    | some j' =>
      rw [e1, e2] at hr
      have hj : render j = render j' := Option.some.inj hr
      simp only [Option.map_some, Option.some.injEq]
      simp only [render, renderMembers, hj, List.isEmpty_cons]

/-- C102: the text depends on nothing else than what is written: the fields without the copies of a text, and of the times only the instant and the zone. -/
theorem C102_shown (a b : Cert) (h : a.written = b.written) : certText a = certText b := text_of_alike (cert_alike h)

/-! ### When a text is made -/

theorem encFields_some (n : Bytes) (s : Shape) (fs) (v : V) (vs) : encFields ((n, true, s) :: fs) (v :: vs) ≠ none ↔ (isEmpty v = false → encJ s v ≠ none) ∧ encFields fs vs ≠ none := by
  rw [encFields, Bool.true_and]
  cases isEmpty v with
  | true => simp
  | false =>
    cases encJ s v <;> cases encFields fs vs <;> simp

theorem encFields_nil : encFields [] [] ≠ none := by rw [encFields]; simp

theorem enc_int (i : Int) : encJ .int (.int i) ≠ none := by rw [encJ]; simp
theorem enc_bool (b : Bool) : encJ .bool (.bool b) ≠ none := by rw [encJ]; simp
theorem enc_str (x : Bytes) : encJ .str (.str x) ≠ none := by rw [encJ]; simp
theorem enc_bytes (b : Option Bytes) : encJ .bytes (.bytes b) ≠ none := by cases b <;> (rw [encJ]; simp)
theorem enc_time (t : Time) : encJ .time (.time t) ≠ none ↔ timeText t ≠ none := by rw [encJ]; simp
theorem enc_struct (fs vs) : encJ (.struct fs) (.struct vs) ≠ none ↔ encFields fs vs ≠ none := by rw [encJ]; simp

theorem enc_elems {α : Type} (s : Shape) (f : α → V) : ∀ l : List α, encElems (encJ s) (l.map f) ≠ none ↔ ∀ a ∈ l, encJ s (f a) ≠ none
  | [] => by simp [encElems]
  | a :: l => by
    have ih := enc_elems s f l
    rw [List.map_cons, encElems]
    cases e : encJ s (f a) <;> cases e2 : encElems (encJ s) (l.map f) <;> rw [e2] at ih <;> simp_all

theorem enc_slice {α : Type} (s : Shape) (f : α → V) (l : List α) : encJ (.slice s) (.slice (l.map f)) ≠ none ↔ ∀ a ∈ l, encJ s (f a) ≠ none := by
  rw [encJ, ← enc_elems s f l]
  simp

theorem enc_spct (s : Spct) : encJ (.struct timestampFields) (spctV s) ≠ none ↔ timeText s.addedTS ≠ none := by
  unfold spctV
  rw [enc_struct]
  simp only [timestampFields, baseFields, List.cons_append, List.nil_append, encFields_some, encFields_nil, enc_int, enc_bytes, enc_time, isEmpty, implies_true, true_and, and_true, not_false_eq_true, ne_eq]
  simp

theorem enc_attributes (a : PolicyAttr.Attributes) : encJ attributesShape (attributesV a) ≠ none := by
  unfold attributesV attributesShape
  rw [enc_struct]
  have h : ∀ l : List Bytes, encJ (.slice .str) (.slice (l.map .str)) ≠ none := fun l => (enc_slice .str .str l).2 fun a _ => enc_str a
  simp only [encFields_some, encFields_nil, h, implies_true, true_and, not_false_eq_true, ne_eq]

theorem enc_cert (c : Cert) : encJ certShape (certV c) ≠ none ↔ ∀ t ∈ times c, timeText t ≠ none := by
  unfold certV certShape
  rw [enc_struct]
  simp only [certFields, documentFields, baseFields, fieldsV, List.cons_append, List.nil_append]
  have hsp : (isEmpty (.slice (c.spcts.map spctV)) = false → encJ (.slice (.struct timestampFields)) (.slice (c.spcts.map spctV)) ≠ none) ↔ ∀ s ∈ c.spcts, timeText s.addedTS ≠ none := by
    rw [enc_slice]
    simp only [enc_spct]
    constructor
    · intro h s hs
      refine h ?_ s hs
      cases hl : c.spcts with
      | nil => rw [hl] at hs; cases hs
      | cons a l => rfl
    · intro h _
      exact h
  have ht : ∀ t : Time, (isEmpty (.time t) = false → encJ .time (.time t) ≠ none) ↔ timeText t ≠ none := fun t => by rw [enc_time]; simp [isEmpty]
  have ha : (isEmpty (attributesV c.attributes) = false → encJ attributesShape (attributesV c.attributes) ≠ none) := fun _ => enc_attributes _
  have hi : ∀ i : Int, (isEmpty (.int i) = false → encJ .int (.int i) ≠ none) := fun i _ => enc_int i
  have hb : ∀ i : Bool, (isEmpty (.bool i) = false → encJ .bool (.bool i) ≠ none) := fun i _ => enc_bool i
  have hs : ∀ i : Bytes, (isEmpty (.str i) = false → encJ .str (.str i) ≠ none) := fun i _ => enc_str i
  have hy : ∀ i : Option Bytes, (isEmpty (.bytes i) = false → encJ .bytes (.bytes i) ≠ none) := fun i _ => enc_bytes i
  rw [encFields_some, encFields_some, encFields_some, encFields_some, encFields_some, encFields_some, encFields_some, encFields_some, encFields_some, encFields_some, encFields_some,
    encFields_some, encFields_some, encFields_some, encFields_some, encFields_some, encFields_some, hsp, ht, ht, ht]
  simp only [times, List.cons_append, List.nil_append, List.mem_cons, List.mem_map]
  constructor
  · rintro ⟨_, _, _, h1, h2, _, _, _, _, _, h3, _, _, _, _, _, h4, _⟩ t ht
    rcases ht with rfl | rfl | rfl | ⟨s, hs, rfl⟩
    · exact h1
    · exact h2
    · exact h3
    · exact h4 s hs
  · intro h
    exact ⟨hi _, hi _, hs _, h _ (Or.inl rfl), h _ (Or.inr (Or.inl rfl)), hb _, hb _, hy _, hi _, hi _, h _ (Or.inr (Or.inr (Or.inl rfl))), ha, hy _, hy _, hy _, hy _,
      fun s hs => h _ (Or.inr (Or.inr (Or.inr ⟨s, hs, rfl⟩))), encFields_nil⟩

/-- C102: the calendar of the texts: the day 0 is 1970-01-01, and the day after a day is the next one in the Gregorian calendar. -/
theorem C102_calendar : civil 0 = ⟨1970, 1, 1⟩ ∧ ∀ z, (civil z).Valid ∧ civil (z + 1) = (civil z).next := by
  refine ⟨by decide +kernel, fun z => ?_⟩
  obtain ⟨h1, h2⟩ := civil_valid z
  obtain ⟨h3, h4⟩ := dayNumber_next _ h1
  refine ⟨h1, ?_⟩
  rw [h2] at h4
  rw [← h4]
  exact civil_dayNumber _ h3

/-- C102: a text is made if and only if every time is in the years 0 to 9999 (in its zone), and every zone is less than a day from UTC. -/
theorem C102_writes (c : Cert) : certText c ≠ none ↔
    ∀ t ∈ times c, -62167219200000000000 ≤ t.ns + t.off * 1000000000 ∧ t.ns + t.off * 1000000000 < 253402300800000000000 ∧ t.off.natAbs < 86400 := by
  rw [certText_eq]
  have : (encJ certShape (certV c)).map (fun j => render (.obj [(asc "T", .str (asc "*pc")), (asc "O", j)])) ≠ none ↔ encJ certShape (certV c) ≠ none := by simp
  rw [this, enc_cert]
  simp only [timeText_some]

/-! ### Certificates from texts -/

theorem fitss_get (T : Time → Prop) : ∀ (fs : List (Bytes × Bool × Shape)) (vs : List V), Fitss T fs vs → ∀ (i : Nat) (n : Bytes) (b : Bool) (s : Shape), fs[i]? = some (n, b, s) →
    ∃ v, vs[i]? = some v ∧ Fits T s v
  | [], [], _, i, n, b, s, h => by simp at h
  | [], _ :: _, h, _, _, _, _, _ => by rw [Fitss.eq_def] at h; exact h.elim
  | (_, _, _) :: _, [], h, _, _, _, _, _ => by rw [Fitss.eq_def] at h; exact h.elim
  | (n, b, s) :: fs, v :: vs, h, 0, _, _, _, hi => by
    rw [Fitss] at h
    simp only [List.getElem?_cons_zero, Option.some.injEq, Prod.mk.injEq] at hi
    obtain ⟨_, _, rfl⟩ := hi
    exact ⟨v, rfl, h.1⟩
  | (n, b, s) :: fs, v :: vs, h, i + 1, n', b', s', hi => by
    rw [Fitss] at h
    exact fitss_get T fs vs h.2 i n' b' s' (by simpa using hi)

theorem fits_int (T : Time → Prop) {fs : List (Bytes × Bool × Shape)} {vs : List V} {i : Nat} {n : Bytes} {b : Bool} (h : Fitss T fs vs) (hi : fs[i]? = some (n, b, Shape.int)) : -(2 ^ 63) ≤ intOf vs[i]? ∧ intOf vs[i]? < 2 ^ 63 := by
  obtain ⟨v, hv, hf⟩ := fitss_get T fs vs h i n b _ hi
  rw [hv]
  cases v <;> simp only [Fits] at hf
  exact hf

theorem fits_time (T : Time → Prop) {fs : List (Bytes × Bool × Shape)} {vs : List V} {i : Nat} {n : Bytes} {b : Bool} (h : Fitss T fs vs) (hi : fs[i]? = some (n, b, Shape.time)) : T (timeOf vs[i]?) := by
  obtain ⟨v, hv, hf⟩ := fitss_get T fs vs h i n b _ hi
  rw [hv]
  cases v <;> simp only [Fits] at hf
  exact hf

theorem listOf_fieldsOf (T : Time → Prop) (fs) (v : V) (h : Fits T (.struct fs) v) : Fitss T fs (listOf (some v)) := by
  cases v <;> simp only [Fits] at h
  exact h

/-- C102: every certificate that is read from any bytes has numbers of 64 bits and zones of whole minutes, and can be written again. -/
theorem C102_received (x : Bytes) (c : Cert) (h : readCert x = some c) : ExactCert c ∧ certText c ≠ none := by
  have hp : ∃ v, Fits Plain certShape v ∧ c = certOf v := by
    unfold readCert at h
    split at h
    · rename_i v r hx
      cases h
      refine ⟨v, ?_, rfl⟩
      unfold fromText at hx
      split at hx
      · cases hx
      · have := (fromJ_plain _ _ hx).1
        simp only [PlainVal] at this
        exact this
    · cases h
  obtain ⟨v, hv, rfl⟩ := hp
  unfold certShape at hv
  have hl := listOf_fieldsOf Plain _ v hv
  have hsp : ∀ s ∈ (certOf v).spcts, (-(2 ^ 63) ≤ s.version ∧ s.version < 2 ^ 63) ∧ Plain s.addedTS := by
    intro s hs
    obtain ⟨w, hw, rfl⟩ := List.mem_map.1 hs
    have hw' : Fits Plain (.struct timestampFields) w := by
      obtain ⟨u, hu, hf⟩ := fitss_get Plain _ _ hl 16 _ _ _ rfl
      rw [hu] at hw
      cases u <;> simp only [Fits] at hf
      · cases hw
      · exact hf w hw
    have := listOf_fieldsOf Plain _ w hw'
    exact ⟨fits_int Plain this rfl, fits_time Plain (i := 2) this rfl⟩
  have ht : ∀ t ∈ times (certOf v), Plain t := by
    intro t ht
    simp only [times, List.cons_append, List.nil_append, List.mem_cons, List.mem_map] at ht
    rcases ht with rfl | rfl | rfl | ⟨s, hs, rfl⟩
    · exact fits_time Plain (i := 3) hl rfl
    · exact fits_time Plain (i := 4) hl rfl
    · exact fits_time Plain (i := 10) hl rfl
    · exact (hsp s hs).2
  refine ⟨⟨?_, fun t h => (ht t h).1⟩, ?_⟩
  · intro i hi
    simp only [ints, List.cons_append, List.nil_append, List.mem_cons, List.mem_map] at hi
    rcases hi with rfl | rfl | rfl | rfl | ⟨s, hs, rfl⟩
    · exact fits_int Plain (i := 0) hl rfl
    · exact fits_int Plain (i := 1) hl rfl
    · exact fits_int Plain (i := 8) hl rfl
    · exact fits_int Plain (i := 9) hl rfl
    · exact (hsp s hs).1
  · rw [C102_writes]
    intro t h
    exact (timeText_some t).1 (ht t h).2

/-! ### Signatures over the texts -/

variable {Key Pub : Type}

/-- The library with the texts of this model. -/
def textEnv (E : Env Key Pub) : Env Key Pub := { E with enc := certText }

open Classical in
/-- The same for exact certificates only. -/
noncomputable def exactEnv (E : Env Key Pub) : Env Key Pub := { E with enc := fun c => if ExactCert c then certText c else none }

theorem times_norm (c : Cert) : times c.norm = (times c).map Time.norm := by
  simp only [times, Cert.norm, Fields.norm, List.map_append, List.map_cons, List.map_nil, List.map_map]
  rfl

theorem ints_norm (c : Cert) : ints c.norm = ints c := by
  simp only [ints, Cert.norm, Fields.norm, List.map_map]
  rfl

theorem exact_of_norm {a b : Cert} (h : a.norm = b.norm) (ha : ExactCert a) : ExactCert b := by
  have hi : ints a = ints b := by rw [← ints_norm a, ← ints_norm b, h]
  have ht : (times a).map Time.norm = (times b).map Time.norm := by rw [← times_norm a, ← times_norm b, h]
  refine ⟨fun i hi' => ha.ints i (by rw [hi]; exact hi'), fun t ht' => ?_⟩
  have : t.norm ∈ (times a).map Time.norm := by rw [ht]; exact List.mem_map.2 ⟨t, ht', rfl⟩
  obtain ⟨u, hu, he⟩ := List.mem_map.1 this
  have ho : u.off = t.off := show u.norm.off = t.norm.off by rw [he]
  rw [← ho]
  exact ha.times u hu

/-- C102: what C45, C46, C93 and others assume of the JSON encoder is true of the texts of exact certificates. -/
theorem C102_faithful (E : Env Key Pub) : (exactEnv E).Faithful := by
  refine ⟨?_, ?_⟩
  · intro a b h
    have hn := Policy.norm_of_written h
    unfold exactEnv
    dsimp only
    by_cases ha : ExactCert a
    · rw [if_pos ha, if_pos (exact_of_norm hn ha), C102_shown a b h]
    · rw [if_neg ha, if_neg (fun hb => ha (exact_of_norm hn.symm hb))]
  · intro a b x ha hb
    unfold exactEnv at ha hb
    dsimp only at ha hb
    split at ha
    · rename_i ea
      split at hb
      · rename_i eb
        have h1 := C102_certificate_partial a ea x ha
        have h2 := C102_certificate_partial b eb x hb
        rw [h1] at h2
        exact Option.some.inj h2
      · cases hb
    · cases ha

/-- The certificate has no other numbers and times. -/
theorem exact_of_subset {a b : Cert} (h1 : ints b ⊆ ints a) (h2 : times b ⊆ times a) (h : ExactCert a) : ExactCert b :=
  ⟨fun i hi => h.ints i (h1 hi), fun t ht => h.times t (h2 ht)⟩

theorem enc_exact (E : Env Key Pub) {c : Cert} (h : ExactCert c) : (exactEnv E).enc c = (textEnv E).enc c := by
  unfold exactEnv textEnv
  dsimp only
  rw [if_pos h]

theorem hash_exact (E : Env Key Pub) {c : Cert} (h : ExactCert c) : Policy.computeHashAsSigner (exactEnv E) c = Policy.computeHashAsSigner (textEnv E) c := by
  unfold Policy.computeHashAsSigner
  rw [enc_exact E (exact_of_subset (a := c) (by simp [ints]) (by simp [times]) h)]
  rfl

/-- C102: with the texts of encoding/json, a certificate (with time zones of whole minutes) is accepted as signed by its owner only if a request was signed that agrees with it in every covered field. -/
theorem C102_owner_binding_partial (E : Env Key Pub) {owner c c' : Cert} {key : Key} {pub : Pub} (ho : ExactCert owner) (hc : ExactCert c) (hk : E.KeyOf owner key pub) {Signed : Bytes → Prop}
    (hunf : ∀ m s, E.verify pub m s = true → Signed m) {reqs : List (Fields × Bytes)}
    (honly : ∀ m, Signed m → ∃ r ∈ reqs, ExactCert (Policy.certFromRequest r.1) ∧ Policy.OwnerMessage (textEnv E) r.1 r.2 m)
    (hv : Policy.verifyOwner (textEnv E) owner c = (true, c')) :
    c' = c ∧ ∃ r ∈ reqs, Policy.Agree c.toFields { r.1 with ownerHash := some r.2 } ∧ Policy.computeHashAsSigner (textEnv E) owner = some r.2 := by
  have hc2 : ExactCert c.withoutForOwner := exact_of_subset (a := c) (by simp [ints, Cert.withoutForOwner]) (by simp [times, Cert.withoutForOwner]) hc
  have hv2 : Policy.verifyOwner (exactEnv E) owner c = (true, c') := by
    rw [← hv]
    unfold Policy.verifyOwner
    rw [hash_exact E ho, enc_exact E hc2]
    rfl
  have hk2 : (exactEnv E).KeyOf owner key pub := ⟨hk.parses, hk.correct⟩
  have honly2 : ∀ m, Signed m → ∃ r ∈ reqs, Policy.OwnerMessage (exactEnv E) r.1 r.2 m := by
    intro m hm
    obtain ⟨r, hr, he, hmsg⟩ := honly m hm
    refine ⟨r, hr, ?_⟩
    unfold Policy.OwnerMessage at hmsg ⊢
    rw [enc_exact E (exact_of_subset (a := Policy.certFromRequest r.1) (by simp [ints, Policy.certFromRequest]) (by simp [times, Policy.certFromRequest]) he)]
    exact hmsg
  rw [← hash_exact E ho]
  exact Policy.C45_binding (exactEnv E) (C102_faithful E) hk2 hunf honly2 hv2

/-- C102: the same for issuers: nothing but the issuer's signature can be changed. -/
theorem C102_issuer_binding_partial (E : Env Key Pub) {issuer c c' : Cert} {key : Key} {pub : Pub} (ho : ExactCert issuer) (hc : ExactCert c) (hk : E.KeyOf issuer key pub) {Signed : Bytes → Prop}
    (hunf : ∀ m s, E.verify pub m s = true → Signed m) {certs : List (Cert × Bytes)}
    (honly : ∀ m, Signed m → ∃ r ∈ certs, ExactCert r.1 ∧ Policy.IssuerMessage (textEnv E) r.1 r.2 m)
    (hv : Policy.verifyIssuer (textEnv E) issuer c = (true, c')) :
    c' = c ∧ ∃ r ∈ certs, Policy.Agree c.toFields r.1.toFields ∧ c.ownerSignature.getD [] = r.1.ownerSignature.getD [] ∧
      c.spcts.map Spct.norm = r.1.spcts.map Spct.norm ∧ Policy.computeHashAsSigner (textEnv E) issuer = some r.2 ∧ c.issuerHash.getD [] = r.2 := by
  have hc2 : ExactCert { c with issuerSignature := none } := exact_of_subset (a := c) (by simp [ints]) (by simp [times]) hc
  have hv2 : Policy.verifyIssuer (exactEnv E) issuer c = (true, c') := by
    rw [← hv]
    unfold Policy.verifyIssuer
    rw [hash_exact E ho, enc_exact E hc2]
    rfl
  have hk2 : (exactEnv E).KeyOf issuer key pub := ⟨hk.parses, hk.correct⟩
  have honly2 : ∀ m, Signed m → ∃ r ∈ certs, Policy.IssuerMessage (exactEnv E) r.1 r.2 m := by
    intro m hm
    obtain ⟨r, hr, he, hmsg⟩ := honly m hm
    refine ⟨r, hr, ?_⟩
    unfold Policy.IssuerMessage at hmsg ⊢
    rw [enc_exact E (exact_of_subset (a := r.1) (by simp [ints]) (by simp [times]) he)]
    exact hmsg
  rw [← hash_exact E ho]
  exact Policy.C46_binding (exactEnv E) (C102_faithful E) hk2 hunf honly2 hv2

/-- C102 is violated for zones that are not whole minutes: the seconds of a zone are not in the text, so a signed certificate can be given another expiration time, by up to two minutes, and is still accepted. -/
theorem C102_seconds_violated (E : Env Key Pub) (owner c : Cert) (n : Int) (w : Nat) (l : Option Int) (hd : c.notAfter = ⟨n, 59, w, l⟩) :
    ({ c with notAfter := ⟨n + 118000000000, -59, w, l⟩ } : Cert).notAfter.ns = c.notAfter.ns + 118000000000 ∧
    (Policy.verifyOwner (textEnv E) owner { c with notAfter := ⟨n + 118000000000, -59, w, l⟩ }).1 = (Policy.verifyOwner (textEnv E) owner c).1 ∧
    (Policy.verifyIssuer (textEnv E) owner { c with notAfter := ⟨n + 118000000000, -59, w, l⟩ }).1 = (Policy.verifyIssuer (textEnv E) owner c).1 := by
  have ht : timeText ⟨n + 118000000000, -59, w, l⟩ = timeText ⟨n, 59, w, l⟩ := timeText_shown _ _ (by dsimp only; omega) rfl (by simp)
  have key : ∀ a : Cert, a.notAfter = ⟨n, 59, w, l⟩ → certText { a with notAfter := ⟨n + 118000000000, -59, w, l⟩ } = certText a := by
    intro a ha
    apply text_of_alike
    unfold certV certShape
    apply struct_alike
    simp only [certFields, documentFields, baseFields, fieldsV, List.cons_append, List.nil_append, AlikeFields, and_true, true_and, Bool.true_and]
    have h : Alike .time (.time ⟨n + 118000000000, -59, w, l⟩) (.time a.notAfter) := by unfold Alike; rw [encJ, encJ, ht, ha]
    exact ⟨fun _ => rfl, fun _ => rfl, fun _ => rfl, fun _ => rfl, rfl, fun _ => h, fun _ => rfl, fun _ => rfl, fun _ => rfl, fun _ => rfl, fun _ => rfl, fun _ => rfl, fun _ => rfl, fun _ => rfl, fun _ => rfl, fun _ => rfl, fun _ => rfl, fun _ => rfl⟩
  refine ⟨by rw [hd], ?_, ?_⟩
  · have henc : (textEnv E).enc ({ c with notAfter := ⟨n + 118000000000, -59, w, l⟩ } : Cert).withoutForOwner = (textEnv E).enc c.withoutForOwner := key c.withoutForOwner hd
    unfold Policy.verifyOwner
    split
    · rfl
    · rename_i h hh
      show (if c.ownerHash.getD [] ≠ h then _ else _ : Bool × Cert).1 = _
      split
      · rfl
      · split
        · rfl
        · rw [henc]
          split <;> rfl
  · have henc : (textEnv E).enc ({ ({ c with notAfter := ⟨n + 118000000000, -59, w, l⟩ } : Cert) with issuerSignature := none } : Cert) = (textEnv E).enc { c with issuerSignature := none } := key { c with issuerSignature := none } hd
    unfold Policy.verifyIssuer
    split
    · rfl
    · rename_i h hh
      show (if c.issuerHash.getD [] ≠ h then _ else _ : Bool × Cert).1 = _
      split
      · rfl
      · split
        · rfl
        · rw [henc]
          split <;> rfl

/-! ### Signature inputs of time stamps -/

/-- The number has 64 bits, and the zone of the time is whole minutes. -/
structure ExactInput (i : Owner.SptInput) : Prop where
  int : -(2 ^ 63) ≤ i.version ∧ i.version < 2 ^ 63
  time : i.addedTS.off % 60 = 0

theorem norms_cons_false (n : Bytes) (s : Shape) (fs) (v : V) (vs) : norms ((n, false, s) :: fs) (v :: vs) = norm s v :: norms fs vs := by
  rw [norms, Bool.false_and]
  rfl

theorem input_read (i : Owner.SptInput) : inputOf (norm sigInputShape (inputV i)) = i.norm := by
  unfold inputV sigInputShape
  rw [norm]
  simp only [timestampFields, baseFields, List.cons_append, List.nil_append, norms_cons, norms_cons_false, norms_nil, inputOf, listOf_struct, List.getElem?_cons_zero, List.getElem?_cons_succ, field_int, field_bytes, field_time]
  simp only [norm, bytesOf]
  rfl

theorem input_exact (i : Owner.SptInput) (h : ExactInput i) : Exact sigInputShape (inputV i) := by
  unfold inputV sigInputShape
  rw [Exact]
  simp only [timestampFields, baseFields, List.cons_append, List.nil_append, exacts_cons, Exact, Exacts, and_true, true_and]
  exact ⟨h.int, h.time⟩

theorem input_text {i : Owner.SptInput} (h : ExactInput i) {x : Bytes} (hx : inputText i = some x) : ∃ v, fromText x = some (.ptr (.obj ⟨.spctSigInput, v, none⟩)) ∧ inputOf v = i.norm := by
  have hx' : toText (.ptr (.obj ⟨.spctSigInput, inputV i, none⟩)) = .ok x := by
    unfold inputText at hx
    split at hx
    · rename_i y hy
      cases hx
      exact hy
    · cases hx
  unfold toText toJSON at hx'
  simp only [marshal] at hx'
  have e : lib.marshal Kind.spctSigInput (inputV i) = encJ sigInputShape (inputV i) := rfl
  rw [e] at hx'
  cases hj : encJ sigInputShape (inputV i) with
  | none => rw [hj] at hx'; cases hx'
  | some j =>
    rw [hj] at hx'
    cases hx'
    obtain ⟨h1, h2⟩ := dec_enc sigInputShape (shape_wf .spctSigInput) (inputV i) j (input_exact i h) hj
    refine ⟨norm sigInputShape (inputV i), ?_, input_read i⟩
    unfold fromText
    rw [parse_render _ (ints_env _ _ (by rw [flat]; exact h1))]
    dsimp only
    rw [env_read _ _ (ascii_star_tag .spctSigInput)]
    unfold finish
    rw [known_star_tag, if_neg (by simp)]
    dsimp only
    rw [if_pos ⟨rfl, known_tag .spctSigInput⟩, typeJ_tag, flat]
    unfold Reflect.inflate
    have : decJ (shape .spctSigInput) (zero (shape .spctSigInput)) (fix j) = some (norm sigInputShape (inputV i)) := h2
    rw [this]
    rfl

theorem input_alike {a b : Owner.SptInput} (h : a.norm = b.norm) : Alike sigInputShape (inputV a) (inputV b) := by
  have h1 : a.version = b.version := show a.norm.version = b.norm.version by rw [h]
  have h2 := bytes_alike (show a.norm.logID = b.norm.logID by rw [h])
  have h3 : a.addedTS.norm = b.addedTS.norm := show a.norm.addedTS = b.norm.addedTS by rw [h]
  have h4 := bytes_alike (show a.norm.signature = b.norm.signature by rw [h])
  have h5 : a.entry = b.entry := show a.norm.entry = b.norm.entry by rw [h]
  unfold inputV sigInputShape
  apply struct_alike
  simp only [timestampFields, baseFields, List.cons_append, List.nil_append, AlikeFields, and_true, Bool.true_and, Bool.false_and]
  exact ⟨by rw [h1], fun _ => by rw [h1]; rfl, h2.1, h2.2, rfl, fun _ => time_alike h3, h4.1, h4.2, by rw [h5], fun _ => by rw [h5]; rfl⟩

open Classical in
/-- The texts of exact signature inputs. -/
noncomputable def exactInput (i : Owner.SptInput) : Option Bytes := if ExactInput i then inputText i else none

/-- C102: what C94 assumes of the texts of signature inputs is true of the texts of exact ones. -/
theorem C102_input_faithful : Owner.FaithfulIn exactInput := by
  have key : ∀ a b : Owner.SptInput, a.norm = b.norm → ExactInput a → ExactInput b := by
    intro a b h ha
    have h1 : a.version = b.version := show a.norm.version = b.norm.version by rw [h]
    have h3 : a.addedTS.off = b.addedTS.off := show a.norm.addedTS.off = b.norm.addedTS.off by rw [h]
    exact ⟨by rw [← h1]; exact ha.int, by rw [← h3]; exact ha.time⟩
  refine ⟨?_, ?_⟩
  · intro a b h
    unfold exactInput
    by_cases ha : ExactInput a
    · rw [if_pos ha, if_pos (key a b h ha)]
      have hr := input_alike h
      unfold Alike at hr
      unfold inputText toText toJSON
      simp only [marshal]
      have e : ∀ i, lib.marshal Kind.spctSigInput (inputV i) = encJ sigInputShape (inputV i) := fun _ => rfl
      rw [e, e]
      cases e1 : encJ sigInputShape (inputV a) with
      | none =>
        cases e2 : encJ sigInputShape (inputV b) with
        | none => rfl
        | some j => rw [e1, e2] at hr; cases hr
      | some j =>
        cases e2 : encJ sigInputShape (inputV b) with
        | none => rw [e1, e2] at hr; cases hr
        | some j' =>
          rw [e1, e2] at hr
          have hj : render j = render j' := Option.some.inj hr
          simp only [flat, render, renderMembers, hj, List.isEmpty_cons]
    · rw [if_neg ha, if_neg (fun hb => ha (key b a h.symm hb))]
  · intro a b x ha hb
    unfold exactInput at ha hb
    split at ha
    · rename_i ea
      split at hb
      · rename_i eb
        obtain ⟨v, h1, h2⟩ := input_text ea ha
        obtain ⟨w, h3, h4⟩ := input_text eb hb
        rw [h1] at h3
        cases h3
        rw [← h2, ← h4]
      · cases hb
    · cases ha

/-! ## Concrete cases -/

/-- 2023-06-15 12:30:00.5 in a zone two hours east. -/
def exInstant : Time := ⟨1686825000500000000, 7200, 1, none⟩

def exCert : Cert :=
  { Policy.certFromRequest { Policy.exFields (asc "example.com") 3 with notBefore := exInstant, notAfter := exInstant, timeStamp := exInstant, attributes := ⟨[asc "CA"], [asc "a\"<"], [], []⟩ } with
    spcts := [⟨none, 1, some [1, 2], exInstant, some [9]⟩], issuerHash := some [7] }

example : timeText exInstant = some (asc "2023-06-15T12:30:00.5+02:00") := by decide +kernel

theorem exCert_exact : ExactCert exCert := by
  refine ⟨?_, ?_⟩
  · intro i hi
    have : i ∈ [1, 3, 0, 0, 1] := hi
    simp only [List.mem_cons, List.not_mem_nil, or_false] at this
    omega
  · intro t ht
    have : t ∈ [exInstant, exInstant, exInstant, exInstant] := ht
    simp only [List.mem_cons, List.not_mem_nil, or_false, or_self] at this
    subst this
    rfl

theorem exCert_writes : certText exCert ≠ none := by
  rw [C102_writes]
  intro t ht
  have : t ∈ [exInstant, exInstant, exInstant, exInstant] := ht
  simp only [List.mem_cons, List.not_mem_nil, or_false, or_self] at this
  subst this
  decide

example : ∃ x, certText exCert = some x ∧ readCert x = some exCert.norm ∧ ExactCert exCert.norm := by
  obtain ⟨x, hx⟩ := Option.ne_none_iff_exists'.1 exCert_writes
  have := C102_certificate_partial exCert exCert_exact x hx
  exact ⟨x, hx, this, (C102_received x _ this).1⟩

/-- The bytes of a certificate. -/
example : certText (Policy.certFromRequest { Policy.exFields (asc "a.<b") 3 with notBefore := exInstant, canIssue := false, publicKey := none }) = some (asc
    "{\"T\":\"*pc\",\"O\":{\"Version\":1,\"SerialNumber\":3,\"Domain\":\"a.\\u003cb\",\"NotBefore\":\"2023-06-15T12:30:00.5+02:00\",\"NotAfter\":\"1970-01-01T00:00:00.00000002Z\",\"CanOwn\":true,\"TimeStamp\":\"1970-01-01T00:00:00.000000005Z\",\"PolicyAttributes\":{\"AllowedSubdomains\":[\"www\"]}}}") := by
  decide +kernel

/-- A list of a certificate and a time stamp is written and read. -/
example : ∃ x v', toText (.ptr (.slice true [.obj ⟨.pc, certV exCert, none⟩, .ptr (.obj ⟨.spct, spctV ⟨none, 1, some [1, 2], exInstant, none⟩, none⟩)])) = .ok x ∧ fromText x = some v' := by
  have : ∃ x, toText (.ptr (.slice true [.obj ⟨.pc, certV exCert, none⟩, .ptr (.obj ⟨.spct, spctV ⟨none, 1, some [1, 2], exInstant, none⟩, none⟩)])) = .ok x := by
    have h1 : encJ certShape (certV exCert) ≠ none := (enc_cert _).2 (by
      intro t ht
      have : t ∈ [exInstant, exInstant, exInstant, exInstant] := ht
      simp only [List.mem_cons, List.not_mem_nil, or_false, or_self] at this
      subst this
      decide +kernel)
    have h2 : encJ spctShape (spctV ⟨none, 1, some [1, 2], exInstant, none⟩) ≠ none := (enc_spct _).2 (by decide +kernel)
    obtain ⟨a, ha⟩ := Option.ne_none_iff_exists'.1 h1
    obtain ⟨b, hb⟩ := Option.ne_none_iff_exists'.1 h2
    have ha' : lib.marshal .pc (certV exCert) = some a := ha
    have hb' : lib.marshal .spct (spctV ⟨none, 1, some [1, 2], exInstant, none⟩) = some b := hb
    unfold toText toJSON
    simp only [marshal, marshalAll, ha', hb']
    exact ⟨_, rfl⟩
  obtain ⟨x, hx⟩ := this
  obtain ⟨v', h, _⟩ := C102_roundtrip_partial _ (by rfl) (by
    simp only [ExactVal, ExactVals, and_true]
    exact ⟨cert_exact _ exCert_exact, spct_exact _ (by decide) rfl⟩) x hx
  exact ⟨x, v', hx, h⟩

/-- A request, and the text that its owner signs. -/
def exReq : Fields := { Policy.exFields (asc "a.example.com") 2 with notBefore := exInstant }
def exMessage : Bytes := (certText (Policy.certFromRequest { exReq with ownerHash := some [0] })).getD []

/-- A library whose signatures are the key and the message, for one message only: the hypotheses of the binding theorems are met. -/
def exSig : Env Bytes Bytes := ⟨fun _ => none, fun _ => [0], fun p => some p, fun p m s => decide (s = p ++ m ∧ m = exMessage), fun k m => if m = exMessage then some (k ++ m) else none⟩

theorem exReq_times (f : Fields) (h1 : f.notBefore = exInstant) (h2 : f.notAfter = Policy.exTime 20) (h3 : f.timeStamp = Policy.exTime 5) : certText (Policy.certFromRequest f) ≠ none := by
  rw [C102_writes]
  intro t ht
  have : t ∈ [f.notBefore, f.notAfter, f.timeStamp] := ht
  rw [h1, h2, h3] at this
  simp only [List.mem_cons, List.not_mem_nil, or_false] at this
  rcases this with rfl | rfl | rfl <;> decide

theorem exReq_exact (f : Fields) (h0 : ints (Policy.certFromRequest f) = [1, 2, 0, 0]) (h1 : f.notBefore = exInstant) (h2 : f.notAfter = Policy.exTime 20) (h3 : f.timeStamp = Policy.exTime 5) :
    ExactCert (Policy.certFromRequest f) := by
  refine ⟨?_, ?_⟩
  · rw [h0]
    intro i hi
    simp only [List.mem_cons, List.not_mem_nil, or_false] at hi
    omega
  · intro t ht
    have : t ∈ [f.notBefore, f.notAfter, f.timeStamp] := ht
    rw [h1, h2, h3] at this
    simp only [List.mem_cons, List.not_mem_nil, or_false] at this
    rcases this with rfl | rfl | rfl <;> rfl

example : ∃ (owner c : Cert) (Signed : Bytes → Prop) (reqs : List (Fields × Bytes)), ExactCert owner ∧ ExactCert c ∧ exSig.KeyOf owner [1, 2, 3] [1, 2, 3] ∧
    (∀ m s, exSig.verify [1, 2, 3] m s = true → Signed m) ∧ (∀ m, Signed m → ∃ r ∈ reqs, ExactCert (Policy.certFromRequest r.1) ∧ Policy.OwnerMessage (textEnv exSig) r.1 r.2 m) ∧
    Policy.verifyOwner (textEnv exSig) owner c = (true, c) := by
  have hm : certText (Policy.certFromRequest { exReq with ownerHash := some [0] }) = some exMessage := by
    have := exReq_times { exReq with ownerHash := some [0] } rfl rfl rfl
    obtain ⟨x, hx⟩ := Option.ne_none_iff_exists'.1 this
    unfold exMessage
    rw [hx]
    rfl
  refine ⟨Policy.certFromRequest exReq, Policy.certFromRequest { exReq with ownerHash := some [0], ownerSignature := some ([1, 2, 3] ++ exMessage) }, fun m => m = exMessage, [(exReq, [0])],
    exReq_exact _ rfl rfl rfl rfl, exReq_exact _ rfl rfl rfl rfl, ⟨rfl, ?_⟩, ?_, ?_, ?_⟩
  · intro m s h
    have h : (if m = exMessage then some ([1, 2, 3] ++ m) else none) = some s := h
    split at h
    · cases h
      show decide (_ ∧ _) = true
      simp [*]
    · cases h
  · intro m s h
    have h : decide (s = [1, 2, 3] ++ m ∧ m = exMessage) = true := h
    exact (of_decide_eq_true h).2
  · intro m h
    subst h
    exact ⟨(exReq, [0]), by simp, exReq_exact _ rfl rfl rfl rfl, hm⟩
  · have h1 : Policy.computeHashAsSigner (textEnv exSig) (Policy.certFromRequest exReq) = some [0] := by
      obtain ⟨x, hx⟩ := Option.ne_none_iff_exists'.1 (exReq_times exReq rfl rfl rfl)
      have hx' : (textEnv exSig).enc { Policy.certFromRequest exReq with spcts := [], issuerSignature := none } = some x := hx
      unfold Policy.computeHashAsSigner
      rw [hx']
      rfl
    unfold Policy.verifyOwner
    rw [h1]
    dsimp only
    rw [if_neg (by simp [Policy.certFromRequest])]
    have h2 : (textEnv exSig).enc (Policy.certFromRequest { exReq with ownerHash := some [0], ownerSignature := some ([1, 2, 3] ++ exMessage) }).withoutForOwner = some exMessage := hm
    have h3 : (textEnv exSig).parsePub ((Policy.certFromRequest exReq).publicKey.getD []) = some [1, 2, 3] := rfl
    rw [h3]
    dsimp only
    rw [h2]
    have h4 : (textEnv exSig).verify [1, 2, 3] exMessage ([1, 2, 3] ++ exMessage) = true := by
      show decide (_ ∧ _) = true
      simp
    exact Prod.ext h4 rfl

/-- A certificate whose times are in a zone 59 seconds east of UTC can be written. -/
example : certText (Policy.certFromRequest { exReq with notAfter := ⟨20, 59, 1, none⟩ }) ≠ none := by
  rw [C102_writes]
  intro t ht
  have : t ∈ [exInstant, ⟨20, 59, 1, none⟩, Policy.exTime 5] := ht
  simp only [List.mem_cons, List.not_mem_nil, or_false] at this
  rcases this with rfl | rfl | rfl <;> decide

end Fpki.PolicyText
