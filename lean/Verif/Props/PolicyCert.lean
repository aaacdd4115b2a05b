import Verif.Model.PolicyCert
import Verif.Lemmas.Json
import Mathlib.Tactic.DeriveCountable
import Mathlib.Data.Countable.Basic
import Mathlib.Logic.Equiv.List
import Mathlib.Logic.Encodable.Basic
import Mathlib.Data.Fintype.EquivFin
import Mathlib.Data.List.Basic

/-!
# C45, C46, C47: signatures on policy certificates and issuer constraints
-/
namespace Fpki.Policy

open Fpki.PolicyAttr (Attributes)
open Fpki.Domain (dot asc)

variable {Key Pub : Type}

/-! ## Assumptions and specification -/

/-- What the JSON text is made from: the texts as they are written (bytes that are not UTF-8 as an escape), and the rest as in `norm`. -/
def Cert.written (c : Cert) : Cert :=
  { c.norm with
    domain := Json.quote c.domain
    attributes := ⟨c.attributes.allowedCAs.map Json.quote, c.attributes.allowed.map Json.quote, c.attributes.disallowed.map Json.quote, c.attributes.excluded.map Json.quote⟩ }

/-- What is assumed of the JSON encoder: the text depends on what it shows and determines it. C102 proves it of encoding/json. -/
structure Env.Faithful (E : Env Key Pub) : Prop where
  shown : ∀ a b : Cert, a.written = b.written → E.enc a = E.enc b
  determines : ∀ (a b : Cert) (x : Bytes), E.enc a = some x → E.enc b = some x → a.norm = b.norm

/-- `pub` is the key in the certificate, and it accepts what `key` signs. -/
structure Env.KeyOf (E : Env Key Pub) (c : Cert) (key : Key) (pub : Pub) : Prop where
  parses : E.parsePub (c.publicKey.getD []) = some pub
  correct : ∀ m s, E.sign key m = some s → E.verify pub m s = true

/-- The contents (apart from the owner's own signature and hash) agree in every field: texts up to bytes that are not UTF-8, times in instant and offset. -/
structure Agree (a b : Fields) : Prop where
  version : a.version = b.version
  serial : a.serial = b.serial
  domain : fixUtf8 a.domain = fixUtf8 b.domain
  notBefore : a.notBefore.ns = b.notBefore.ns
  notAfter : a.notAfter.ns = b.notAfter.ns
  timeStamp : a.timeStamp.ns = b.timeStamp.ns
  canIssue : a.canIssue = b.canIssue
  canOwn : a.canOwn = b.canOwn
  publicKey : a.publicKey.getD [] = b.publicKey.getD []
  algorithms : a.publicKeyAlgorithm = b.publicKeyAlgorithm ∧ a.signatureAlgorithm = b.signatureAlgorithm
  allowedCAs : a.attributes.allowedCAs.map fixUtf8 = b.attributes.allowedCAs.map fixUtf8
  allowed : a.attributes.allowed.map fixUtf8 = b.attributes.allowed.map fixUtf8
  disallowed : a.attributes.disallowed.map fixUtf8 = b.attributes.disallowed.map fixUtf8
  excluded : a.attributes.excluded.map fixUtf8 = b.attributes.excluded.map fixUtf8
  ownerHash : a.ownerHash.getD [] = b.ownerHash.getD []

/-- The text is valid UTF-8. -/
def ValidUtf8 (s : Bytes) : Prop := fixUtf8 s = s

/-! ## Lemmas -/

/-- What is written the same way is read the same way. -/
theorem fix_of_quote {a b : Bytes} (h : Json.quote a = Json.quote b) : fixUtf8 a = fixUtf8 b := by
  have ha := Json.parse_render (.str a) (by unfold Json.Ints; exact True.intro)
  have hb := Json.parse_render (.str b) (by unfold Json.Ints; exact True.intro)
  unfold Json.render Json.fix at ha hb
  rw [h, hb] at ha
  injection ha with ha
  injection ha with ha
  exact ha.symm

theorem fix_of_quotes : ∀ {a b : List Bytes}, a.map Json.quote = b.map Json.quote → a.map fixUtf8 = b.map fixUtf8
  | [], [], _ => rfl
  | x :: a, y :: b, h => by
    simp only [List.map_cons, List.cons.injEq] at h ⊢
    exact ⟨fix_of_quote h.1, fix_of_quotes h.2⟩

theorem norm_of_written {a b : Cert} (h : a.written = b.written) : a.norm = b.norm := by
  have g : ∀ {α : Type} (f : Cert → α), f a.written = f b.written := fun f => congrArg f h
  have h1 := fix_of_quote (g (fun c => c.domain))
  have h2 := fix_of_quotes (g (fun c => c.attributes.allowedCAs))
  have h3 := fix_of_quotes (g (fun c => c.attributes.allowed))
  have h4 := fix_of_quotes (g (fun c => c.attributes.disallowed))
  have h5 := fix_of_quotes (g (fun c => c.attributes.excluded))
  have e : ∀ c : Cert, c.norm = { c.written with domain := fixUtf8 c.domain, attributes := ⟨c.attributes.allowedCAs.map fixUtf8, c.attributes.allowed.map fixUtf8, c.attributes.disallowed.map fixUtf8, c.attributes.excluded.map fixUtf8⟩ } := fun c => rfl
  rw [e a, e b, h, h1, h2, h3, h4, h5]

theorem normBytes_getD {a b : Option Bytes} (h : normBytes a = normBytes b) : a.getD [] = b.getD [] := by
  cases a with
  | none =>
    cases b with
    | none => rfl
    | some y =>
      cases y with
      | nil => rfl
      | cons c y => cases h
  | some x =>
    cases x with
    | nil =>
      cases b with
      | none => rfl
      | some y =>
        cases y with
        | nil => rfl
        | cons c y => cases h
    | cons c x =>
      cases b with
      | none => cases h
      | some y =>
        cases y with
        | nil => cases h
        | cons c y => exact congrArg (fun z => Option.getD z []) h

theorem agree_of_norm {a b : Fields} (h : a.norm = b.norm) : Agree a b := by
  have g : ∀ {α : Type} (f : Fields → α), f a.norm = f b.norm := fun f => congrArg f h
  exact {
    version := g Fields.version
    serial := g Fields.serial
    domain := g Fields.domain
    notBefore := g (fun f => f.notBefore.ns)
    notAfter := g (fun f => f.notAfter.ns)
    timeStamp := g (fun f => f.timeStamp.ns)
    canIssue := g Fields.canIssue
    canOwn := g Fields.canOwn
    publicKey := normBytes_getD (g Fields.publicKey)
    algorithms := ⟨g Fields.publicKeyAlgorithm, g Fields.signatureAlgorithm⟩
    allowedCAs := g (fun f => f.attributes.allowedCAs)
    allowed := g (fun f => f.attributes.allowed)
    disallowed := g (fun f => f.attributes.disallowed)
    excluded := g (fun f => f.attributes.excluded)
    ownerHash := normBytes_getD (g Fields.ownerHash) }

theorem norm_fields {a b : Cert} (h : a.norm = b.norm) : a.toFields.norm = b.toFields.norm := congrArg Cert.toFields h

/-! ## C45 -/

/-- C45: a request signed with `SignAsOwner` verifies, in the request and in every certificate made from it by adding SPCTs, issuer signature and issuer hash, and also after the owner's certificate has got other SPCTs and another issuer signature; and verifying changes nothing. -/
theorem C45_signed_verifies (E : Env Key Pub) {owner : Cert} {key : Key} {pub : Pub} (hk : E.KeyOf owner key pub) {req req' : Fields} (hs : signAsOwner E owner key req = some req')
    (hf : E.Faithful) (is ih : Option Bytes) (sp : List Spct) (is' : Option Bytes) (sp' : List Spct) :
    verifyOwnerRequest E owner req' = true ∧
    verifyOwner E { owner with issuerSignature := is', spcts := sp' } { certFromRequest req' with issuerSignature := is, issuerHash := ih, spcts := sp } =
      (true, { certFromRequest req' with issuerSignature := is, issuerHash := ih, spcts := sp }) := by
  have key : ∀ (is ih : Option Bytes) (sp : List Spct) (is' : Option Bytes) (sp' : List Spct),
      verifyOwner E { owner with issuerSignature := is', spcts := sp' } { certFromRequest req' with issuerSignature := is, issuerHash := ih, spcts := sp } =
        (true, { certFromRequest req' with issuerSignature := is, issuerHash := ih, spcts := sp }) := by
    intro is ih sp is' sp'
    unfold signAsOwner at hs
    split at hs
    · cases hs
    · rename_i hnil
      split at hs
      · cases hs
      · split at hs
        · cases hs
        · rename_i h hh
          split at hs
          · cases hs
          · rename_i m hm
            split at hs
            · cases hs
            · rename_i s hsig
              cases hs
              have hn1 : req.ownerSignature = none := by
                refine Classical.byContradiction fun hc => hnil (Or.inl hc)
              have hh' : computeHashAsSigner E { owner with issuerSignature := is', spcts := sp' } = some h := hh
              unfold verifyOwner
              rw [hh']
              dsimp only
              rw [if_neg (by simp [certFromRequest])]
              have hp : E.parsePub (owner.publicKey.getD []) = some pub := hk.parses
              rw [hp]
              dsimp only
              have henc : E.enc ({ certFromRequest { req with ownerHash := some h, ownerSignature := some s } with issuerSignature := is, issuerHash := ih, spcts := sp } : Cert).withoutForOwner = some m := by
                rw [← hm]
                apply hf.shown
                simp only [Cert.withoutForOwner, certFromRequest, hn1]
              rw [henc]
              show (E.verify pub m s, _) = _
              rw [hk.correct m s hsig]
  refine ⟨?_, key is ih sp is' sp'⟩
  have h := key none none [] owner.issuerSignature owner.spcts
  unfold verifyOwnerRequest
  have e1 : ({ owner with issuerSignature := owner.issuerSignature, spcts := owner.spcts } : Cert) = owner := rfl
  have e2 : ({ certFromRequest req' with issuerSignature := none, issuerHash := none, spcts := [] } : Cert) = certFromRequest req' := rfl
  rw [e1, e2] at h
  rw [h]

/-- C45: `SignAsOwner` succeeds only if the signer may own certificates and the request has no owner signature or hash yet; it changes nothing but these two fields, which it sets to the hash of the owner's certificate and to a signature by the given key. -/
theorem C45_sign_requires (E : Env Key Pub) {owner : Cert} {key : Key} {req req' : Fields} (hs : signAsOwner E owner key req = some req') :
    owner.canOwn = true ∧ req.ownerSignature = none ∧ req.ownerHash = none ∧
    ∃ h m s, computeHashAsSigner E owner = some h ∧ E.sign key m = some s ∧ req' = { req with ownerHash := some h, ownerSignature := some s } := by
  unfold signAsOwner at hs
  split at hs
  · cases hs
  · rename_i hnil
    split at hs
    · cases hs
    · rename_i hown
      split at hs
      · cases hs
      · rename_i h hh
        split at hs
        · cases hs
        · rename_i m hm
          split at hs
          · cases hs
          · rename_i s hsig
            cases hs
            refine ⟨by simpa using hown, Classical.byContradiction fun hc => hnil (Or.inl hc), Classical.byContradiction fun hc => hnil (Or.inr hc), h, m, s, hh, hsig, rfl⟩

/-- The message that `SignAsOwner` signs for a request. -/
def OwnerMessage (E : Env Key Pub) (req : Fields) (h m : Bytes) : Prop := E.enc (certFromRequest { req with ownerHash := some h, ownerSignature := none }) = some m

/-- C45: a certificate is accepted only if a request was signed that agrees with it in every covered field and names the same owner. `Signed` are the messages signed with the owner's key; the signature scheme is unforgeable (`hunf`), and the key is only used to sign requests of the list `reqs` (`honly`). -/
theorem C45_binding (E : Env Key Pub) (hf : E.Faithful) {owner c c' : Cert} {key : Key} {pub : Pub} (hk : E.KeyOf owner key pub) {Signed : Bytes → Prop}
    (hunf : ∀ m s, E.verify pub m s = true → Signed m) {reqs : List (Fields × Bytes)} (honly : ∀ m, Signed m → ∃ r ∈ reqs, OwnerMessage E r.1 r.2 m)
    (hv : verifyOwner E owner c = (true, c')) :
    c' = c ∧ ∃ r ∈ reqs, Agree c.toFields { r.1 with ownerHash := some r.2 } ∧ computeHashAsSigner E owner = some r.2 := by
  unfold verifyOwner at hv
  split at hv
  · cases hv
  · rename_i h hh
    split at hv
    · cases hv
    · rename_i hoh
      rw [hk.parses] at hv
      dsimp only at hv
      split at hv
      · cases hv
      · rename_i m hm
        simp only [Prod.mk.injEq] at hv
        obtain ⟨h1, h2⟩ := hv
        obtain ⟨r, hr, hmsg⟩ := honly m (hunf m _ h1)
        refine ⟨h2.symm, r, hr, ?_⟩
        have hn := hf.determines _ _ m hm hmsg
        have ha := agree_of_norm (norm_fields hn)
        refine ⟨⟨ha.version, ha.serial, ha.domain, ha.notBefore, ha.notAfter, ha.timeStamp, ha.canIssue, ha.canOwn, ha.publicKey, ha.algorithms, ha.allowedCAs, ha.allowed, ha.disallowed, ha.excluded, ha.ownerHash⟩, ?_⟩
        have hoh' : c.ownerHash.getD [] = h := Classical.not_not.mp hoh
        have ho : c.ownerHash.getD [] = r.2 := ha.ownerHash
        rw [hh, ← hoh', ho]

/-- C45 is violated for texts that are not UTF-8: the JSON text replaces such bytes, so they can be exchanged in a signed certificate. -/
theorem C45_not_utf8_violated (E : Env Key Pub) (hf : E.Faithful) (owner c : Cert) (hd : c.domain = [0xff, 0x2e, 0x61]) :
    (verifyOwner E owner { c with domain := [0xfe, 0x2e, 0x61] }).1 = (verifyOwner E owner c).1 := by
  have henc : E.enc ({ c with domain := [0xfe, 0x2e, 0x61] } : Cert).withoutForOwner = E.enc c.withoutForOwner := by
    apply hf.shown
    have : Json.quote [0xfe, 0x2e, 0x61] = Json.quote [0xff, 0x2e, 0x61] := by decide +kernel
    simp only [Cert.withoutForOwner, Cert.written, Cert.norm, Fields.norm, hd, this]
  unfold verifyOwner
  split
  · rfl
  · rename_i h hh
    show (if c.ownerHash.getD [] ≠ h then _ else _ : Bool × Cert).1 = _
    split
    · rfl
    · split
      · rfl
      · rw [henc]
        split <;> rfl

/-- With valid UTF-8 the covered texts are equal. -/
theorem C45_text_equal {a b : Fields} (h : Agree a b) (ha : ValidUtf8 a.domain) (hb : ValidUtf8 b.domain) : a.domain = b.domain := by
  have := h.domain
  rw [ha, hb] at this
  exact this

/-- Verification may destroy the certificate: if the JSON text cannot be made (e.g. a year after 9999), the signatures and SPCTs are gone afterwards. -/
theorem C45_destroys_violated (E : Env Key Pub) (owner c : Cert) (h : Bytes) (pub : Pub) (h1 : computeHashAsSigner E owner = some h) (h2 : c.ownerHash = some h)
    (h3 : E.parsePub (owner.publicKey.getD []) = some pub) (h4 : E.enc c.withoutForOwner = none) :
    (verifyOwner E owner c).1 = false ∧ (verifyOwner E owner c).2.spcts = [] ∧ (verifyOwner E owner c).2.ownerSignature = none ∧ (verifyOwner E owner c).2.issuerSignature = none := by
  unfold verifyOwner
  rw [h1]
  dsimp only
  rw [if_neg (by simp [h2]), h3]
  dsimp only
  rw [h4]
  exact ⟨rfl, rfl, rfl, rfl⟩

/-! ## C46 -/

/-- C46: a certificate signed with `SignPolicyCertificateAsIssuer` verifies, also after the issuer's certificate has got other SPCTs and another issuer signature; and verifying changes nothing. -/
theorem C46_signed_verifies (E : Env Key Pub) {issuer : Cert} {key : Key} {pub : Pub} (hk : E.KeyOf issuer key pub) {child child' : Cert} (hs : signAsIssuer E issuer key child = some child')
    (is' : Option Bytes) (sp' : List Spct) :
    verifyIssuer E { issuer with issuerSignature := is', spcts := sp' } child' = (true, child') := by
  unfold signAsIssuer at hs
  split at hs
  · cases hs
  · rename_i hnil
    split at hs
    · cases hs
    · rename_i h hh
      split at hs
      · cases hs
      · rename_i m hm
        split at hs
        · cases hs
        · rename_i s hsig
          cases hs
          have hn1 : child.issuerSignature = none := by
            refine Classical.byContradiction fun hc => hnil (Or.inl hc)
          have hh' : computeHashAsSigner E { issuer with issuerSignature := is', spcts := sp' } = some h := hh
          unfold verifyIssuer
          rw [hh']
          dsimp only
          rw [if_neg (by simp)]
          rw [hk.parses]
          dsimp only
          have henc : E.enc ({ child with issuerHash := some h, issuerSignature := none } : Cert) = some m := by
            rw [← hm]
            congr 1
            rw [← hn1]
          rw [henc]
          show (E.verify pub m s, _) = _
          rw [hk.correct m s hsig]

/-- The message that `SignPolicyCertificateAsIssuer` signs for a certificate. -/
def IssuerMessage (E : Env Key Pub) (child : Cert) (h m : Bytes) : Prop := E.enc { child with issuerHash := some h, issuerSignature := none } = some m

/-- C46: a certificate is accepted only if one was signed that agrees with it in every field but the issuer signature: also in the owner signature and all SPCTs, and it names the same issuer. -/
theorem C46_binding (E : Env Key Pub) (hf : E.Faithful) {issuer child child' : Cert} {key : Key} {pub : Pub} (hk : E.KeyOf issuer key pub) {Signed : Bytes → Prop}
    (hunf : ∀ m s, E.verify pub m s = true → Signed m) {certs : List (Cert × Bytes)} (honly : ∀ m, Signed m → ∃ r ∈ certs, IssuerMessage E r.1 r.2 m)
    (hv : verifyIssuer E issuer child = (true, child')) :
    child' = child ∧ ∃ r ∈ certs, Agree child.toFields r.1.toFields ∧ child.ownerSignature.getD [] = r.1.ownerSignature.getD [] ∧
      child.spcts.map Spct.norm = r.1.spcts.map Spct.norm ∧ computeHashAsSigner E issuer = some r.2 ∧ child.issuerHash.getD [] = r.2 := by
  unfold verifyIssuer at hv
  split at hv
  · cases hv
  · rename_i h hh
    split at hv
    · cases hv
    · rename_i hoh
      rw [hk.parses] at hv
      dsimp only at hv
      split at hv
      · cases hv
      · rename_i m hm
        simp only [Prod.mk.injEq] at hv
        obtain ⟨h1, h2⟩ := hv
        obtain ⟨r, hr, hmsg⟩ := honly m (hunf m _ h1)
        have hn := hf.determines _ _ m hm hmsg
        have ha := agree_of_norm (norm_fields hn)
        have hoh' : child.issuerHash.getD [] = h := Classical.not_not.mp hoh
        have hih : child.issuerHash.getD [] = r.2 := normBytes_getD (b := some r.2) (congrArg Cert.issuerHash hn)
        refine ⟨h2.symm, r, hr, ?_, ?_, ?_, ?_, hih⟩
        · exact ⟨ha.version, ha.serial, ha.domain, ha.notBefore, ha.notAfter, ha.timeStamp, ha.canIssue, ha.canOwn, ha.publicKey, ha.algorithms, ha.allowedCAs, ha.allowed, ha.disallowed, ha.excluded, ha.ownerHash⟩
        · exact normBytes_getD (congrArg (fun x : Cert => x.ownerSignature) hn)
        · exact congrArg Cert.spcts hn
        · rw [hh, ← hoh', hih]

/-- C46: the hash that identifies an issuer (or owner) does not depend on its SPCTs or issuer signature, and depends on everything else. -/
theorem C46_signer_hash (E : Env Key Pub) (hf : E.Faithful) (a b : Cert) (x y : Bytes)
    (hx : E.enc { a with spcts := [], issuerSignature := none } = some x) (hy : E.enc { b with spcts := [], issuerSignature := none } = some y)
    (hcr : E.H x = E.H y → x = y) :
    (∀ is sp, computeHashAsSigner E { a with issuerSignature := is, spcts := sp } = computeHashAsSigner E a) ∧
    (computeHashAsSigner E a = computeHashAsSigner E b → Agree a.toFields b.toFields ∧ a.ownerSignature.getD [] = b.ownerSignature.getD [] ∧ a.issuerHash.getD [] = b.issuerHash.getD []) := by
  refine ⟨fun is sp => rfl, fun h => ?_⟩
  unfold computeHashAsSigner at h
  rw [hx, hy] at h
  simp only [Option.map_some, Option.some.injEq] at h
  have hxy := hcr h
  subst hxy
  have hn := hf.determines _ _ x hx hy
  have ha := agree_of_norm (norm_fields hn)
  refine ⟨⟨ha.version, ha.serial, ha.domain, ha.notBefore, ha.notAfter, ha.timeStamp, ha.canIssue, ha.canOwn, ha.publicKey, ha.algorithms, ha.allowedCAs, ha.allowed, ha.disallowed, ha.excluded, ha.ownerHash⟩, ?_, ?_⟩
  · exact normBytes_getD (congrArg (fun x : Cert => x.ownerSignature) hn)
  · exact normBytes_getD (congrArg Cert.issuerHash hn)

/-- C46: an owner signature is never taken for an issuer signature or the other way round, although both are made with the same key over the same kind of text: the signed texts differ. -/
theorem C46_separated (E : Env Key Pub) (hf : E.Faithful) (req : Fields) (child : Cert) (h h' m m' : Bytes) (hlen : h' ≠ []) (h1 : OwnerMessage E req h m) (h2 : IssuerMessage E child h' m') :
    m ≠ m' := by
  intro he
  subst he
  have hn := hf.determines _ _ m h1 h2
  have := congrArg Cert.issuerHash hn
  cases h' with
  | nil => exact hlen rfl
  | cons c h' => cases this

/-- The check of the issuer signature may also destroy it. -/
theorem C46_destroys_violated (E : Env Key Pub) (issuer child : Cert) (h : Bytes) (pub : Pub) (h1 : computeHashAsSigner E issuer = some h) (h2 : child.issuerHash = some h)
    (h3 : E.parsePub (issuer.publicKey.getD []) = some pub) (h4 : E.enc { child with issuerSignature := none } = none) :
    (verifyIssuer E issuer child).1 = false ∧ (verifyIssuer E issuer child).2.issuerSignature = none := by
  unfold verifyIssuer
  rw [h1]
  dsimp only
  rw [if_neg (by simp [h2]), h3]
  dsimp only
  rw [h4]
  exact ⟨rfl, rfl⟩

/-! ## C47 -/

/-- C47 (partial: the validity period): an accepted child is valid only while its issuer is. -/
theorem C47_period_partial (issuer child : Cert) (h : verifyIssuerConstraints issuer child = true) (t : Int) (ht : child.notBefore.ns ≤ t ∧ t ≤ child.notAfter.ns) :
    issuer.notBefore.ns ≤ t ∧ t ≤ issuer.notAfter.ns := by
  unfold verifyIssuerConstraints at h
  split at h
  · cases h
  · split at h
    · cases h
    · omega

/-- What is checked about the names: nothing if the issuer has a domain; if it has none, the child must have none or end with a dot. -/
theorem C47_actual (issuer child : Cert) : verifyIssuerConstraints issuer child = true ↔
    issuer.notBefore.ns ≤ child.notBefore.ns ∧ child.notAfter.ns ≤ issuer.notAfter.ns ∧ (issuer.domain ≠ [] ∨ child.domain = [] ∨ [dot] <:+ child.domain) := by
  unfold verifyIssuerConstraints
  split
  · simp only [Bool.false_eq_true, false_iff]; omega
  · split
    · simp only [Bool.false_eq_true, false_iff]; omega
    · rename_i h1 h2
      split
      · rename_i h3
        exact ⟨fun _ => ⟨by omega, by omega, Or.inl h3⟩, fun _ => rfl⟩
      · rename_i h3
        have h3 : issuer.domain = [] := Classical.not_not.mp h3
        split
        · rename_i h4
          exact ⟨fun _ => ⟨by omega, by omega, Or.inr (Or.inl (by rw [← h4, h3]))⟩, fun _ => rfl⟩
        · rename_i h4
          rw [h3]
          split
          · rename_i h5
            simp only [Bool.false_eq_true, false_iff]
            rintro ⟨_, _, h | h | h⟩
            · exact h rfl
            · exact h4 (by rw [h, h3])
            · rw [List.isSuffixOf_iff_suffix.mpr h] at h5; cases h5
          · rename_i h5
            refine ⟨fun _ => ⟨by omega, by omega, Or.inr (Or.inr ?_)⟩, fun _ => rfl⟩
            rw [← List.isSuffixOf_iff_suffix]
            simpa using h5

def exTime (n : Int) : Time := ⟨n, 0, 0, none⟩
def exFields (domain : Bytes) (serial : Int) : Fields :=
  { raw := none, version := 1, serial := serial, domain := domain, notBefore := exTime 10, notAfter := exTime 20, canIssue := true, canOwn := true, publicKey := some [1, 2, 3],
    publicKeyAlgorithm := 0, signatureAlgorithm := 0, timeStamp := exTime 5, attributes := ⟨[], [asc "www"], [], []⟩, ownerSignature := none, ownerHash := none }

/-- C47 is violated: the issuer of `example.com` may issue for `evil.org`, and a root without a domain may not issue for `example.com`. -/
theorem C47_domain_violated :
    verifyIssuerConstraints (certFromRequest (exFields (asc "example.com") 1)) (certFromRequest (exFields (asc "evil.org") 2)) = true ∧
    verifyIssuerConstraints (certFromRequest (exFields [] 1)) (certFromRequest (exFields (asc "example.com") 2)) = false := by decide +kernel

/-! ## The assumptions can be met -/

instance : Countable Byte := ⟨⟨UInt8.toNat, fun _ _ h => UInt8.toNat_inj.mp h⟩⟩

deriving instance Countable for Time
deriving instance Countable for Spct
deriving instance Countable for PolicyAttr.Attributes
deriving instance Countable for Fields
deriving instance Countable for Cert

theorem exists_enc : ∃ f : Cert → Bytes, Function.Injective f := by
  obtain ⟨f, hf⟩ := exists_injective_nat Cert
  refine ⟨fun c => List.replicate (f c) 0, fun a b h => hf ?_⟩
  have := congrArg List.length h
  simpa using this

/-- An example environment: JSON texts begin with an opening brace, the "hash" only tells texts that begin with a brace from others, signing prepends the key. -/
noncomputable def exEnv : Env Bytes Bytes where
  enc c := some (0x7b :: exists_enc.choose c.norm)
  H x := List.replicate 32 (if x.head? = some 0x7b then 0 else 1)
  parsePub p := some p
  verify p m s := decide (s = p ++ m)
  sign k m := some (k ++ m)

theorem exEnv_faithful : exEnv.Faithful := by
  constructor
  · intro a b h
    show some (0x7b :: exists_enc.choose a.norm) = some (0x7b :: exists_enc.choose b.norm)
    rw [norm_of_written h]
  · intro a b x ha hb
    have ha : some (0x7b :: exists_enc.choose a.norm) = some x := ha
    have hb : some (0x7b :: exists_enc.choose b.norm) = some x := hb
    rw [← hb] at ha
    exact exists_enc.choose_spec (List.cons.inj (Option.some.inj ha)).2

theorem exEnv_key (serial : Int) (d : Bytes) : exEnv.KeyOf (certFromRequest (exFields d serial)) [1, 2, 3] [1, 2, 3] := by
  constructor
  · rfl
  · intro m s h
    have h : some ([1, 2, 3] ++ m) = some s := h
    cases h
    show decide _ = true
    simp

/-- The rights `CanIssue` and `CanOwn` do not limit what is accepted: a certificate that has neither signs as issuer, its signature and the constraints are accepted, and an owner signature made with its key is accepted too. -/
theorem C47_rights_violated : ∃ signer child : Cert, signer.canIssue = false ∧ signer.canOwn = false ∧
    (∃ child', signAsIssuer exEnv signer [1, 2, 3] child = some child' ∧ verifyIssuer exEnv signer child' = (true, child') ∧ verifyIssuerConstraints signer child' = true) ∧
    ∃ child', verifyOwner exEnv signer child' = (true, child') := by
  have hp : exEnv.KeyOf (certFromRequest { exFields (asc "example.com") 1 with canIssue := false, canOwn := false }) [1, 2, 3] [1, 2, 3] := by
    constructor
    · rfl
    · intro m s h
      have h : some ([1, 2, 3] ++ m) = some s := h
      cases h
      show decide _ = true
      simp
  refine ⟨certFromRequest { exFields (asc "example.com") 1 with canIssue := false, canOwn := false }, certFromRequest (exFields (asc "a.example.com") 2), rfl, rfl, ?_, ?_⟩
  · exact ⟨_, rfl, C46_signed_verifies exEnv hp (child := certFromRequest (exFields (asc "a.example.com") 2)) rfl _ _, by decide +kernel⟩
  · let h : Bytes := List.replicate 32 0
    let c : Cert := certFromRequest { exFields (asc "a.example.com") 2 with ownerHash := some h }
    refine ⟨{ c with ownerSignature := some ([1, 2, 3] ++ 0x7b :: exists_enc.choose c.norm) }, ?_⟩
    have h1 : computeHashAsSigner exEnv (certFromRequest { exFields (asc "example.com") 1 with canIssue := false, canOwn := false }) = some h := by
      show some (List.replicate 32 (if (0x7b :: _ : Bytes).head? = some 0x7b then 0 else 1)) = _
      simp [h]
    unfold verifyOwner
    rw [h1]
    dsimp only
    rw [if_neg (fun hc => hc rfl)]
    show (decide ([1, 2, 3] ++ 0x7b :: exists_enc.choose c.norm = [1, 2, 3] ++ 0x7b :: exists_enc.choose c.norm), _) = _
    simp

/-- A request can be signed; so the theorems about signed requests and certificates are not empty. -/
example : ∃ req', signAsOwner exEnv (certFromRequest (exFields (asc "example.com") 1)) [1, 2, 3] (exFields (asc "a.example.com") 2) = some req' := ⟨_, rfl⟩

example : ∃ child', signAsIssuer exEnv (certFromRequest (exFields (asc "example.com") 1)) [1, 2, 3] (certFromRequest (exFields (asc "a.example.com") 2)) = some child' := ⟨_, rfl⟩

/-- Unforgeability can be met: only messages actually signed verify. -/
example : ∀ m s, exEnv.verify [1, 2, 3] m s = true → exEnv.sign [1, 2, 3] m = some s := by
  intro m s h
  have h : decide (s = [1, 2, 3] ++ m) = true := h
  simp at h
  rw [h]
  rfl

example : ValidUtf8 (asc "example.com") := by unfold ValidUtf8; decide +kernel
example : fixUtf8 [0xc3, 0xa9, 0xe2, 0x82, 0xac, 0xf0, 0x9f, 0x98, 0x80, 0xe2, 0x82] = [0xc3, 0xa9, 0xe2, 0x82, 0xac, 0xf0, 0x9f, 0x98, 0x80, 0xEF, 0xBF, 0xBD, 0xEF, 0xBF, 0xBD] := by decide +kernel

end Fpki.Policy
