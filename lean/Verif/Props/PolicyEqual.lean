import Verif.Model.PolicyEqual
import Verif.Props.PolicyCert

/-!
# C74: comparison of policy objects
-/
namespace Fpki.Policy

open Fpki.Domain (asc)

variable {Key Pub : Type}

/-! ## Specification -/

/-- The time stamps are the same entry: all fields, times as instants. -/
def SameSpct (a b : Spct) : Prop := a.version = b.version ∧ a.logID.getD [] = b.logID.getD [] ∧ a.addedTS.ns = b.addedTS.ns ∧ a.signature.getD [] = b.signature.getD []

/-- The lists have the same length and pairwise related elements. -/
def Pointwise {T : Type} (R : T → T → Prop) (a b : List T) : Prop := a.length = b.length ∧ ∀ (i : Nat) (x y : T), a[i]? = some x → b[i]? = some y → R x y

/-- The certificates have the same contents: all fields but the raw text; times as instants, nil byte strings as empty ones. -/
structure SameCert (a b : Cert) : Prop where
  version : a.version = b.version
  serial : a.serial = b.serial
  domain : a.domain = b.domain
  notBefore : a.notBefore.ns = b.notBefore.ns
  notAfter : a.notAfter.ns = b.notAfter.ns
  canIssue : a.canIssue = b.canIssue
  canOwn : a.canOwn = b.canOwn
  publicKey : a.publicKey.getD [] = b.publicKey.getD []
  publicKeyAlgorithm : a.publicKeyAlgorithm = b.publicKeyAlgorithm
  signatureAlgorithm : a.signatureAlgorithm = b.signatureAlgorithm
  timeStamp : a.timeStamp.ns = b.timeStamp.ns
  attributes : a.attributes = b.attributes
  ownerSignature : a.ownerSignature.getD [] = b.ownerSignature.getD []
  ownerHash : a.ownerHash.getD [] = b.ownerHash.getD []
  issuerSignature : a.issuerSignature.getD [] = b.issuerSignature.getD []
  issuerHash : a.issuerHash.getD [] = b.issuerHash.getD []
  spcts : Pointwise SameSpct a.spcts b.spcts

/-- All texts of the certificate are valid UTF-8. -/
structure TextsValid (c : Cert) : Prop where
  domain : ValidUtf8 c.domain
  allowedCAs : ∀ s ∈ c.attributes.allowedCAs, ValidUtf8 s
  allowed : ∀ s ∈ c.attributes.allowed, ValidUtf8 s
  disallowed : ∀ s ∈ c.attributes.disallowed, ValidUtf8 s
  excluded : ∀ s ∈ c.attributes.excluded, ValidUtf8 s

/-! ## Lemmas -/

theorem equalSlices_iff {T : Type} (eq : T → T → Bool) (R : T → T → Prop) (h : ∀ x y, eq x y = true ↔ R x y) (a b : List T) : equalSlices eq a b = true ↔ Pointwise R a b := by
  unfold equalSlices Pointwise
  split
  · rename_i hl
    simp only [Bool.false_eq_true, false_iff, not_and]
    intro h'
    exact absurd h' hl
  · rename_i hl
    have hl : a.length = b.length := Classical.not_not.mp hl
    rw [List.all_eq_true]
    constructor
    · intro hz
      refine ⟨hl, fun i x y hx hy => ?_⟩
      rw [← h]
      refine hz (x, y) ?_
      exact List.mem_of_getElem? (i := i) (by rw [List.getElem?_zip_eq_some]; exact ⟨hx, hy⟩)
    · rintro ⟨_, hp⟩ ⟨x, y⟩ hm
      obtain ⟨i, hi⟩ := List.mem_iff_getElem?.mp hm
      rw [List.getElem?_zip_eq_some] at hi
      exact (h x y).mpr (hp i x y hi.1 hi.2)

theorem pointwise_eq {T : Type} (a b : List T) : Pointwise (· = ·) a b ↔ a = b := by
  constructor
  · rintro ⟨hl, h⟩
    apply List.ext_getElem? 
    intro i
    by_cases hi : i < a.length
    · have hb : i < b.length := by omega
      rw [List.getElem?_eq_getElem hi, List.getElem?_eq_getElem hb]
      rw [h i a[i] b[i] (List.getElem?_eq_getElem hi) (List.getElem?_eq_getElem hb)]
    · rw [List.getElem?_eq_none (by omega), List.getElem?_eq_none (by omega)]
  · rintro rfl
    exact ⟨rfl, fun i x y hx hy => by rw [hx] at hy; exact Option.some.inj hy⟩

theorem equalStringSlices_iff (a b : List Bytes) : equalStringSlices a b = true ↔ a = b := by
  have : equalStringSlices a b = equalSlices (fun x y => x == y) a b := rfl
  rw [this, equalSlices_iff _ (· = ·) (by simp), pointwise_eq]

theorem bytesEqual_iff (a b : Option Bytes) : bytesEqual a b = true ↔ a.getD [] = b.getD [] := by simp [bytesEqual]

theorem spct_equal_iff (a b : Spct) : a.equal b = true ↔ SameSpct a b := by
  simp [Spct.equal, SameSpct, bytesEqual_iff, Time.equal, and_assoc]

theorem attrEqual_iff (a b : PolicyAttr.Attributes) : attrEqual a b = true ↔ a = b := by
  simp only [attrEqual, Bool.and_eq_true, equalStringSlices_iff]
  constructor
  · rintro ⟨⟨⟨h1, h2⟩, h3⟩, h4⟩
    cases a; cases b
    simp only at h1 h2 h3 h4
    subst h1; subst h2; subst h3; subst h4
    rfl
  · rintro rfl
    exact ⟨⟨⟨rfl, rfl⟩, rfl⟩, rfl⟩

/-! ## C74 -/

/-- C74: `Equal` says whether two certificates have the same contents. -/
theorem C74_equal_iff (a b : Cert) : a.equal b = true ↔ SameCert a b := by
  unfold Cert.equal Fields.equal
  simp only [Bool.and_eq_true, bytesEqual_iff, equalSlices_iff Spct.equal SameSpct spct_equal_iff, attrEqual_iff, Time.equal, beq_iff_eq]
  constructor
  · rintro ⟨⟨⟨h, i1⟩, i2⟩, i3⟩
    obtain ⟨⟨⟨⟨⟨⟨⟨⟨⟨⟨⟨⟨⟨a1, a2⟩, a3⟩, a4⟩, a5⟩, a6⟩, a7⟩, a8⟩, a9⟩, a10⟩, a11⟩, a12⟩, a13⟩, a14⟩ := h
    exact ⟨a1, a2, a3, a6, a7, a8, a9, a5, a4, a10, a11, a14, a12, a13, i1, i2, i3⟩
  · rintro ⟨a1, a2, a3, a6, a7, a8, a9, a5, a4, a10, a11, a14, a12, a13, i1, i2, i3⟩
    exact ⟨⟨⟨⟨⟨⟨⟨⟨⟨⟨⟨⟨⟨⟨⟨⟨a1, a2⟩, a3⟩, a4⟩, a5⟩, a6⟩, a7⟩, a8⟩, a9⟩, a10⟩, a11⟩, a12⟩, a13⟩, a14⟩, i1⟩, i2⟩, i3⟩

theorem normBytes_eq (b : Option Bytes) : (normBytes b).getD [] = b.getD [] := by
  cases b with
  | none => rfl
  | some x => cases x <;> rfl

theorem map_fix_eq {l : List Bytes} (h : ∀ s ∈ l, ValidUtf8 s) : l.map fixUtf8 = l := by
  conv => rhs; rw [← List.map_id l]
  exact List.map_congr_left h

theorem spct_norm_same (l : List Spct) : Pointwise SameSpct l (l.map Spct.norm) := by
  refine ⟨by simp, fun i x y hx hy => ?_⟩
  rw [List.getElem?_map, hx] at hy
  cases hy
  exact ⟨rfl, (normBytes_eq _).symm, rfl, (normBytes_eq _).symm⟩

/-- C74: a certificate that went through its JSON text is `Equal` to what it was, exactly if its texts are valid UTF-8. -/
theorem C74_certificate_roundtrip (c : Cert) : c.equal c.norm = true ↔ TextsValid c := by
  rw [C74_equal_iff]
  constructor
  · intro h
    have hd : c.domain = fixUtf8 c.domain := h.domain
    have ha : c.attributes = normAttr c.attributes := h.attributes
    have hm : ∀ {l : List Bytes}, l = l.map fixUtf8 → ∀ s ∈ l, ValidUtf8 s := by
      intro l hl s hs
      obtain ⟨i, hi⟩ := List.mem_iff_getElem?.mp hs
      have := congrArg (fun l => l[i]?) hl
      simp only [List.getElem?_map, hi, Option.map_some, Option.some.injEq] at this
      exact this.symm
    exact ⟨hd.symm, hm (congrArg PolicyAttr.Attributes.allowedCAs ha), hm (congrArg PolicyAttr.Attributes.allowed ha), hm (congrArg PolicyAttr.Attributes.disallowed ha), hm (congrArg PolicyAttr.Attributes.excluded ha)⟩
  · intro h
    refine { version := rfl, serial := rfl, domain := h.domain.symm, notBefore := rfl, notAfter := rfl, canIssue := rfl, canOwn := rfl, publicKey := (normBytes_eq _).symm,
             publicKeyAlgorithm := rfl, signatureAlgorithm := rfl, timeStamp := rfl, attributes := ?_, ownerSignature := (normBytes_eq _).symm, ownerHash := (normBytes_eq _).symm,
             issuerSignature := (normBytes_eq _).symm, issuerHash := (normBytes_eq _).symm, spcts := spct_norm_same _ }
    show c.attributes = normAttr c.attributes
    unfold normAttr
    rw [map_fix_eq h.allowedCAs, map_fix_eq h.allowed, map_fix_eq h.disallowed, map_fix_eq h.excluded]

theorem pointwise_refl {T : Type} {R : T → T → Prop} (h : ∀ x, R x x) (a : List T) : Pointwise R a a :=
  ⟨rfl, fun i x y hx hy => by rw [hx] at hy; cases hy; exact h x⟩

/-- C74: `Equal` is an equivalence relation. -/
theorem C74_equivalence : Equivalence (fun a b : Cert => a.equal b = true) := by
  simp only [C74_equal_iff]
  refine ⟨fun a => ?_, fun {a b} h => ?_, fun {a b c} h g => ?_⟩
  · exact { version := rfl, serial := rfl, domain := rfl, notBefore := rfl, notAfter := rfl, canIssue := rfl, canOwn := rfl, publicKey := rfl, publicKeyAlgorithm := rfl, signatureAlgorithm := rfl,
            timeStamp := rfl, attributes := rfl, ownerSignature := rfl, ownerHash := rfl, issuerSignature := rfl, issuerHash := rfl, spcts := pointwise_refl (fun x => ⟨rfl, rfl, rfl, rfl⟩) _ }
  · exact { version := h.version.symm, serial := h.serial.symm, domain := h.domain.symm, notBefore := h.notBefore.symm, notAfter := h.notAfter.symm, canIssue := h.canIssue.symm, canOwn := h.canOwn.symm,
            publicKey := h.publicKey.symm, publicKeyAlgorithm := h.publicKeyAlgorithm.symm, signatureAlgorithm := h.signatureAlgorithm.symm, timeStamp := h.timeStamp.symm,
            attributes := h.attributes.symm, ownerSignature := h.ownerSignature.symm, ownerHash := h.ownerHash.symm, issuerSignature := h.issuerSignature.symm, issuerHash := h.issuerHash.symm,
            spcts := ⟨h.spcts.1.symm, fun i x y hx hy => by obtain ⟨e1, e2, e3, e4⟩ := h.spcts.2 i y x hy hx; exact ⟨e1.symm, e2.symm, e3.symm, e4.symm⟩⟩ }
  · exact { version := h.version.trans g.version, serial := h.serial.trans g.serial, domain := h.domain.trans g.domain, notBefore := h.notBefore.trans g.notBefore, notAfter := h.notAfter.trans g.notAfter,
            canIssue := h.canIssue.trans g.canIssue, canOwn := h.canOwn.trans g.canOwn, publicKey := h.publicKey.trans g.publicKey, publicKeyAlgorithm := h.publicKeyAlgorithm.trans g.publicKeyAlgorithm,
            signatureAlgorithm := h.signatureAlgorithm.trans g.signatureAlgorithm, timeStamp := h.timeStamp.trans g.timeStamp, attributes := h.attributes.trans g.attributes,
            ownerSignature := h.ownerSignature.trans g.ownerSignature, ownerHash := h.ownerHash.trans g.ownerHash, issuerSignature := h.issuerSignature.trans g.issuerSignature,
            issuerHash := h.issuerHash.trans g.issuerHash,
            spcts := ⟨h.spcts.1.trans g.spcts.1, fun i x z hx hz => by
              have hi : i < b.spcts.length := by rw [← h.spcts.1]; exact (List.getElem?_eq_some_iff.mp hx).1
              obtain ⟨e1, e2, e3, e4⟩ := h.spcts.2 i x _ hx (List.getElem?_eq_getElem hi)
              obtain ⟨f1, f2, f3, f4⟩ := g.spcts.2 i _ z (List.getElem?_eq_getElem hi) hz
              exact ⟨e1.trans f1, e2.trans f2, e3.trans f3, e4.trans f4⟩⟩ }

/-- `Equal` certificates need not have the same JSON text, and so not the same signer hash: the time zone is part of the text. -/
theorem C74_equal_text_violated (E : Env Key Pub) (hf : E.Faithful) (c : Cert) (d : Int) (hd : d ≠ 0) (x y : Bytes) (hx : E.enc c = some x)
    (hy : E.enc { c with timeStamp := { c.timeStamp with off := c.timeStamp.off + d } } = some y) :
    c.equal { c with timeStamp := { c.timeStamp with off := c.timeStamp.off + d } } = true ∧ x ≠ y := by
  refine ⟨?_, ?_⟩
  · rw [C74_equal_iff]
    exact { version := rfl, serial := rfl, domain := rfl, notBefore := rfl, notAfter := rfl, canIssue := rfl, canOwn := rfl, publicKey := rfl, publicKeyAlgorithm := rfl, signatureAlgorithm := rfl,
            timeStamp := rfl, attributes := rfl, ownerSignature := rfl, ownerHash := rfl, issuerSignature := rfl, issuerHash := rfl, spcts := pointwise_refl (fun x => ⟨rfl, rfl, rfl, rfl⟩) _ }
  · intro he
    subst he
    have := congrArg (fun c : Cert => c.timeStamp.off) (hf.determines _ _ x hx hy)
    simp only [Cert.norm, Fields.norm, Time.norm] at this
    omega

/-- C74: `Equal` revocations have the same contents (and the time stamps are even the same structure). -/
theorem C74_revocation_iff (a b : Revocation) : a.equal b = true ↔
    a.version = b.version ∧ a.serial = b.serial ∧ a.domain = b.domain ∧ a.timeStamp = b.timeStamp ∧ a.ownerSignature.getD [] = b.ownerSignature.getD [] ∧
    a.ownerHash.getD [] = b.ownerHash.getD [] ∧ a.issuerSignature.getD [] = b.issuerSignature.getD [] ∧ a.issuerHash.getD [] = b.issuerHash.getD [] ∧ Pointwise SameSpct a.spcrts b.spcrts := by
  unfold Revocation.equal
  simp only [Bool.and_eq_true, bytesEqual_iff, equalSlices_iff Spct.equal SameSpct spct_equal_iff, beq_iff_eq, decide_eq_true_eq]
  tauto

/-- C74 (partial): a revocation that went through its JSON text is `Equal` to what it was if its domain is valid UTF-8 and its time stamp is in UTC without a monotonic clock reading. -/
theorem C74_revocation_partial (r : Revocation) (hd : ValidUtf8 r.domain) (_h0 : r.timeStamp.off = 0) (h1 : r.timeStamp.loc = 0) (h2 : r.timeStamp.mono = none) : r.equal r.norm = true := by
  have ht : r.timeStamp = r.timeStamp.norm := by
    cases hh : r.timeStamp with
    | mk ns off loc mono =>
      rw [hh] at h1 h2
      simp only at h1 h2
      subst h1; subst h2
      rfl
  unfold Revocation.equal
  simp only [Bool.and_eq_true, bytesEqual_iff, equalSlices_iff Spct.equal SameSpct spct_equal_iff, beq_iff_eq, decide_eq_true_eq]
  exact ⟨⟨⟨⟨⟨⟨⟨⟨rfl, rfl⟩, hd.symm⟩, ht⟩, (normBytes_eq _).symm⟩, (normBytes_eq _).symm⟩, (normBytes_eq _).symm⟩, (normBytes_eq _).symm⟩, spct_norm_same _⟩

/-- C74 is violated for revocations: time stamps are compared with `==`, so a revocation made with `time.Now()`, which has a monotonic clock reading, is never `Equal` to itself read back. -/
theorem C74_revocation_violated (r : Revocation) (m : Int) (h : r.timeStamp.mono = some m) : r.equal r.norm = false := by
  have : ¬ r.timeStamp = r.norm.timeStamp := by
    intro he
    have := congrArg Time.mono he
    rw [h] at this
    cases this
  unfold Revocation.equal
  rw [decide_eq_false this]
  simp

/-! ## Concrete cases -/

example : TextsValid (certFromRequest (exFields (asc "example.com") 1)) := by
  refine ⟨?_, ?_, ?_, ?_, ?_⟩
  · unfold ValidUtf8; decide +kernel
  · intro s hs; simp [certFromRequest, exFields] at hs
  · intro s hs
    simp [certFromRequest, exFields] at hs
    subst hs
    unfold ValidUtf8; decide +kernel
  · intro s hs; simp [certFromRequest, exFields] at hs
  · intro s hs; simp [certFromRequest, exFields] at hs

example : (certFromRequest (exFields (asc "example.com") 1)).equal (certFromRequest (exFields (asc "example.org") 1)) = false := by decide +kernel

def exRevocation (t : Time) : Revocation := ⟨none, 1, 7, asc "example.com", t, some [1], some [2], none, none, []⟩

example : ValidUtf8 (exRevocation (exTime 5)).domain ∧ (exRevocation (exTime 5)).timeStamp.loc = 0 ∧ (exRevocation (exTime 5)).timeStamp.mono = none := by
  refine ⟨?_, rfl, rfl⟩
  unfold ValidUtf8; decide +kernel

example : (exRevocation ⟨5, 0, 0, some 3⟩).equal (exRevocation ⟨5, 0, 0, some 3⟩).norm = false := C74_revocation_violated _ 3 rfl

end Fpki.Policy
