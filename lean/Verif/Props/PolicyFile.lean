import Verif.Model.PolicyFile
import Verif.Lemmas.ReflectUtf8
import Verif.Props.PolicyText
import Verif.Props.Policies
import Verif.Props.PayloadApi
import Verif.Props.Lookup
import Verif.Props.IngestCmd

/-!
# C122: policies submitted with `mapserver -policyFile`
-/
namespace Fpki.PolicyFile
open Fpki.Json Fpki.Reflect Fpki.PolicyJson Fpki.PolicyText
open Fpki.E2E Fpki.Db Fpki.Responder Fpki.Ids
open Fpki.Policy (fixUtf8 normBytes Agree)
open Fpki.Domain (Psl IsPsl parseDomainName removeWildCardAndWWW star)

abbrev PCert := Fpki.Policy.Cert

/-! ## Texts of a file are UTF-8 -/

def Utf8Val : Val V J → Prop
  | .obj o => Utf8V o.content
  | .ptr (.obj o) => Utf8V o.content
  | _ => True

theorem inflateJ_utf8 {t : Bytes} {j : J} {v : Val V J} (hj : fix j = j) (h : inflateJ t j = some v) : Utf8Val v := by
  unfold inflateJ at h
  split at h
  · cases h
  · rename_i k _
    unfold Reflect.inflate at h
    cases hd : decJ (shape k) (zero (shape k)) j with
    | none => rw [hd] at h; cases h
    | some c =>
      rw [hd] at h
      cases h
      rw [Utf8Val]
      exact dec_utf8 (shape k) _ j c hj (zero_utf8 _) hd

theorem typeJ_utf8 {t : Bytes} {j : J} {v : Val V J} (hj : fix j = j) (h : typeJ j t = some v) : Utf8Val v := by
  cases j with
  | arr l =>
    unfold typeJ at h
    split at h
    · cases he : elemsJ l with
      | none => rw [he] at h; cases h
      | some vs => rw [he] at h; cases h; exact True.intro
    · exact inflateJ_utf8 hj h
  | null =>
    unfold typeJ at h
    split at h
    · cases h; exact True.intro
    · exact inflateJ_utf8 hj h
  | _ =>
    unfold typeJ at h
    split at h
    · cases h
    · exact inflateJ_utf8 hj h

theorem finish_utf8 {t : Bytes} {f : Bytes → Option (Val V J)} (hf : ∀ t v, f t = some v → Utf8Val v) {v : Val V J} (h : finish t f = some v) : Utf8Val v := by
  unfold finish at h
  split at h
  · exact hf t v h
  · split at h
    · split at h
      · rename_i c t' _ _
        cases hft : f t' with
        | none => rw [hft] at h; cases h
        | some w =>
          rw [hft] at h
          cases h
          have := hf t' w hft
          cases w with
          | obj o => exact this
          | _ => exact True.intro
      · cases h
    · cases h

theorem env_utf8 : ∀ (l : List (Bytes × J)) (t : Bytes) (f : Bytes → Option (Val V J)) (v : Val V J), (∀ p ∈ l, fix p.2 = p.2) → (∀ t v, f t = some v → Utf8Val v) →
    envMembers l t f = some v → Utf8Val v
  | [], t, f, v, _, hf, h => by
    unfold envMembers at h
    exact finish_utf8 hf h
  | (k, j) :: l, t, f, v, hl, hf, h => by
    have hl' : ∀ p ∈ l, fix p.2 = p.2 := fun p hp => hl p (by simp [hp])
    unfold envMembers at h
    split at h
    · exact env_utf8 l t f v hl' hf h
    · split at h
      · cases h
      · rename_i t' _
        exact env_utf8 l t' f v hl' hf h
    · exact env_utf8 l t (typeJ j) v hl' (fun t v h => typeJ_utf8 (hl (k, j) (by simp)) h) h

theorem fromText_utf8 {x : Bytes} {v : Val V J} (h : fromText x = some v) : Utf8Val v := by
  unfold fromText at h
  cases hp : parse x with
  | none => rw [hp] at h; cases h
  | some j =>
    rw [hp] at h
    have hj := parse_utf8 hp
    cases j with
    | obj l =>
      dsimp only at h
      rw [fix, J.obj.injEq] at hj
      unfold fromJ at h
      exact env_utf8 l [] (fun _ => none) v (fun p hp => ((fixMembers_iff l).1 hj p hp).2) (fun t v h => by cases h) h
    | _ => unfold fromJ at h; cases h

theorem utf8_get {l : List V} (h : Utf8Vs l) (i : Nat) : fixUtf8 (strOf l[i]?) = strOf l[i]? := by
  cases hi : l[i]? with
  | none => decide +kernel
  | some v =>
    have := (utf8Vs_iff l).1 h v (List.mem_of_getElem? hi)
    cases v with
    | str s => rw [Utf8V] at this; exact this
    | _ => exact (by decide +kernel : fixUtf8 [] = [])

theorem utf8_listOf {l : List V} (h : Utf8Vs l) (i : Nat) : Utf8Vs (listOf l[i]?) := by
  have hn : Utf8Vs [] := by rw [Utf8Vs]; exact True.intro
  cases hi : l[i]? with
  | none => exact hn
  | some v =>
    have := (utf8Vs_iff l).1 h v (List.mem_of_getElem? hi)
    cases v with
    | slice l => rw [Utf8V] at this; exact this
    | struct l => rw [Utf8V] at this; exact this
    | _ => exact hn

theorem utf8_strs {l : List V} (h : Utf8Vs l) (i : Nat) : (strsOf l[i]?).map fixUtf8 = strsOf l[i]? := by
  have := utf8_listOf h i
  unfold strsOf
  rw [List.map_map]
  apply List.map_congr_left
  intro v hv
  have := (utf8Vs_iff _).1 this v hv
  cases v with
  | str s => rw [Utf8V] at this; exact this
  | _ => exact (by decide +kernel : fixUtf8 [] = [])

/-- The texts of the certificate are UTF-8. -/
structure Utf8Cert (c : PCert) : Prop where
  domain : fixUtf8 c.domain = c.domain
  allowedCAs : c.attributes.allowedCAs.map fixUtf8 = c.attributes.allowedCAs
  allowed : c.attributes.allowed.map fixUtf8 = c.attributes.allowed
  disallowed : c.attributes.disallowed.map fixUtf8 = c.attributes.disallowed
  excluded : c.attributes.excluded.map fixUtf8 = c.attributes.excluded

theorem read_utf8 {x : Bytes} {c : PCert} (h : readCert x = some c) : Utf8Cert c := by
  unfold readCert at h
  split at h
  · rename_i v r hx
    cases h
    have hv : Utf8V v := fromText_utf8 hx
    have hl : Utf8Vs (listOf (some v)) := by
      have hn : Utf8Vs [] := by rw [Utf8Vs]; exact True.intro
      cases v with
      | slice l => rw [Utf8V] at hv; exact hv
      | struct l => rw [Utf8V] at hv; exact hv
      | _ => exact hn
    have ha := utf8_listOf hl 11
    exact ⟨utf8_get hl 2, utf8_strs ha 0, utf8_strs ha 1, utf8_strs ha 2, utf8_strs ha 3⟩
  · cases h

/-! ## Specification -/

/-- The certificates say the same: they agree in every field, in the signatures and hashes of owner and issuer and in the time stamps. -/
structure SameCert (a b : PCert) : Prop where
  fields : Agree a.toFields b.toFields
  domain : a.domain = b.domain
  attributes : a.attributes = b.attributes
  ownerSignature : a.ownerSignature.getD [] = b.ownerSignature.getD []
  issuerSignature : a.issuerSignature.getD [] = b.issuerSignature.getD []
  issuerHash : a.issuerHash.getD [] = b.issuerHash.getD []
  spcts : a.spcts.map Policy.Spct.norm = b.spcts.map Policy.Spct.norm

/-! ## The text that is submitted -/

theorem written_of_norm {a b : PCert} (ha : Utf8Cert a) (hb : Utf8Cert b) (h : a.norm = b.norm) : a.written = b.written := by
  have g : ∀ {α : Type} (f : PCert → α), f a.norm = f b.norm := fun f => congrArg f h
  have h1 : a.domain = b.domain := by rw [← ha.domain, ← hb.domain]; exact g (fun c => c.domain)
  have h2 : a.attributes.allowedCAs = b.attributes.allowedCAs := by rw [← ha.allowedCAs, ← hb.allowedCAs]; exact g (fun c => c.attributes.allowedCAs)
  have h3 : a.attributes.allowed = b.attributes.allowed := by rw [← ha.allowed, ← hb.allowed]; exact g (fun c => c.attributes.allowed)
  have h4 : a.attributes.disallowed = b.attributes.disallowed := by rw [← ha.disallowed, ← hb.disallowed]; exact g (fun c => c.attributes.disallowed)
  have h5 : a.attributes.excluded = b.attributes.excluded := by rw [← ha.excluded, ← hb.excluded]; exact g (fun c => c.attributes.excluded)
  unfold Policy.Cert.written
  rw [h, h1, h2, h3, h4, h5]

theorem normBytes_twice (b : Option Bytes) : normBytes (normBytes b) = normBytes b := by
  cases b with
  | none => rfl
  | some l => cases l <;> rfl

theorem spct_norm_twice (s : Policy.Spct) : s.norm.norm = s.norm := by
  unfold Policy.Spct.norm
  dsimp only
  rw [normBytes_twice, normBytes_twice]
  rfl

theorem norm_utf8 {c : PCert} (h : Utf8Cert c) : Utf8Cert c.norm := by
  have e2 : c.norm.attributes.allowedCAs = c.attributes.allowedCAs := h.allowedCAs
  have e3 : c.norm.attributes.allowed = c.attributes.allowed := h.allowed
  have e4 : c.norm.attributes.disallowed = c.attributes.disallowed := h.disallowed
  have e5 : c.norm.attributes.excluded = c.attributes.excluded := h.excluded
  have e1 : c.norm.domain = c.domain := h.domain
  exact ⟨by rw [e1]; exact h.domain, by rw [e2]; exact h.allowedCAs, by rw [e3]; exact h.allowed, by rw [e4]; exact h.disallowed, by rw [e5]; exact h.excluded⟩

theorem same_norm {c : PCert} (h : Utf8Cert c) : SameCert c.norm c := by
  have hb : ∀ b : Option Bytes, (normBytes b).getD [] = b.getD [] := by
    intro b
    cases b with
    | none => rfl
    | some l => cases l <;> rfl
  have e1 : c.norm.domain = c.domain := h.domain
  have e2 : c.norm.attributes.allowedCAs = c.attributes.allowedCAs := h.allowedCAs
  have e3 : c.norm.attributes.allowed = c.attributes.allowed := h.allowed
  have e4 : c.norm.attributes.disallowed = c.attributes.disallowed := h.disallowed
  have e5 : c.norm.attributes.excluded = c.attributes.excluded := h.excluded
  have ea : c.norm.attributes = c.attributes := by
    rcases hn : c.norm.attributes with ⟨a1, a2, a3, a4⟩
    rcases hc : c.attributes with ⟨b1, b2, b3, b4⟩
    rw [hn, hc] at e2 e3 e4 e5
    simp_all
  refine ⟨⟨rfl, rfl, by rw [e1], rfl, rfl, rfl, rfl, rfl, hb _, ⟨rfl, rfl⟩, by rw [e2], by rw [e3], by rw [e4], by rw [e5], hb _⟩, e1, ea, hb _, hb _, hb _, ?_⟩
  show (c.spcts.map Policy.Spct.norm).map Policy.Spct.norm = _
  rw [List.map_map]
  exact List.map_congr_left (fun s _ => spct_norm_twice s)

/-- C122: a policy certificate that was read from a file, whatever the layout of the file, is submitted for its domain with a text that a client reads as the certificate that was in the file. -/
theorem C122_text (data : Bytes) (c : PCert) (h : readCert data = some c) :
    ∃ x c', document c = some (c.domain, x) ∧ readCert x = some c' ∧ SameCert c' c := by
  obtain ⟨h1, h2⟩ := C102_received data c h
  cases hx : certText c with
  | none => exact absurd hx h2
  | some x =>
    refine ⟨x, c.norm, ?_, C102_certificate_partial c h1 x hx, same_norm (read_utf8 h)⟩
    unfold document
    rw [hx]
    rfl

/-- C122: two files give the same text, and so the same ID, exactly if they have the same certificate, up to what JSON does not show. -/
theorem C122_same_text (data data' : Bytes) (c c' : PCert) (h : readCert data = some c) (h' : readCert data' = some c') : document c = document c' ↔ c.norm = c'.norm := by
  have hw : c.norm = c'.norm → certText c = certText c' := fun e => C102_shown _ _ (written_of_norm (read_utf8 h) (read_utf8 h') e)
  obtain ⟨h1, h2⟩ := C102_received data c h
  obtain ⟨h1', h2'⟩ := C102_received data' c' h'
  constructor
  · intro e
    unfold document at e
    cases hx : certText c with
    | none => exact absurd hx h2
    | some x =>
      cases hx' : certText c' with
      | none => exact absurd hx' h2'
      | some x' =>
        rw [hx, hx'] at e
        simp only [Option.map_some, Option.some.injEq, Prod.mk.injEq] at e
        have k1 := C102_certificate_partial c h1 x hx
        have k2 := C102_certificate_partial c' h1' x' hx'
        rw [e.2, k2] at k1
        exact (Option.some.inj k1).symm
  · intro e
    have hd : c.domain = c'.domain := by
      rw [← (read_utf8 h).domain, ← (read_utf8 h').domain]
      exact congrArg (fun c : PCert => c.domain) e
    unfold document
    rw [hw e, hd]

/-- C122: what a client reads passes exactly the checks of signatures that the certificate in the file passes. -/
theorem C122_signatures {Key Pub : Type} (E : Policy.Env Key Pub) (data : Bytes) (c : PCert) (h : readCert data = some c) (x : Bytes) (c' : PCert) (hx : document c = some (c.domain, x))
    (hc : readCert x = some c') (signer : PCert) :
    (Policy.verifyIssuer (textEnv E) signer c').1 = (Policy.verifyIssuer (textEnv E) signer c).1 ∧ (Policy.verifyOwner (textEnv E) signer c').1 = (Policy.verifyOwner (textEnv E) signer c).1 := by
  obtain ⟨h1, h2⟩ := C102_received data c h
  have hx' : certText c = some x := by
    unfold document at hx
    cases hy : certText c with
    | none => rw [hy] at hx; cases hx
    | some y =>
      rw [hy] at hx
      simp only [Option.map_some, Option.some.injEq, Prod.mk.injEq, true_and] at hx
      rw [hx]
  have he : c' = c.norm := by
    rw [C102_certificate_partial c h1 x hx'] at hc
    exact (Option.some.inj hc).symm
  subst he
  have hu := read_utf8 h
  have hun := norm_utf8 hu
  have hs := same_norm hu
  have nn : c.norm.norm = c.norm := by
    have hb := normBytes_twice
    have ht : ∀ t : Policy.Time, t.norm.norm = t.norm := fun _ => rfl
    have e1 : fixUtf8 (fixUtf8 c.domain) = fixUtf8 c.domain := by rw [hu.domain, hu.domain]
    have e2 : Policy.normAttr (Policy.normAttr c.attributes) = Policy.normAttr c.attributes := by
      unfold Policy.normAttr
      dsimp only
      rw [hu.allowedCAs, hu.allowedCAs, hu.allowed, hu.allowed, hu.disallowed, hu.disallowed, hu.excluded, hu.excluded]
    have e3 : (c.spcts.map Policy.Spct.norm).map Policy.Spct.norm = c.spcts.map Policy.Spct.norm := by
      rw [List.map_map]
      exact List.map_congr_left (fun s _ => spct_norm_twice s)
    unfold Policy.Cert.norm Policy.Fields.norm
    dsimp only
    rw [hb, hb, hb, hb, hb, e1, e2, e3]
    rfl
  have ki : certText { c.norm with issuerSignature := none } = certText { c with issuerSignature := none } := by
    apply C102_shown
    refine written_of_norm ⟨hun.domain, hun.allowedCAs, hun.allowed, hun.disallowed, hun.excluded⟩ ⟨hu.domain, hu.allowedCAs, hu.allowed, hu.disallowed, hu.excluded⟩ ?_
    have : ({ c.norm with issuerSignature := none } : PCert).norm = { c.norm.norm with issuerSignature := none } := rfl
    rw [this, nn]
    rfl
  have ko : certText c.norm.withoutForOwner = certText c.withoutForOwner := by
    apply C102_shown
    refine written_of_norm ⟨hun.domain, hun.allowedCAs, hun.allowed, hun.disallowed, hun.excluded⟩ ⟨hu.domain, hu.allowedCAs, hu.allowed, hu.disallowed, hu.excluded⟩ ?_
    have : c.norm.withoutForOwner.norm = c.norm.norm.withoutForOwner := rfl
    rw [this, nn]
    rfl
  constructor
  · unfold Policy.verifyIssuer
    cases Policy.computeHashAsSigner (textEnv E) signer with
    | none => rfl
    | some hh =>
      dsimp only
      rw [hs.issuerHash]
      split
      · rfl
      · cases (textEnv E).parsePub (signer.publicKey.getD []) with
        | none => rfl
        | some pub =>
          dsimp only
          rw [show (textEnv E).enc { c.norm with issuerSignature := none } = (textEnv E).enc { c with issuerSignature := none } from ki, hs.issuerSignature]
          cases (textEnv E).enc { c with issuerSignature := none } <;> rfl
  · unfold Policy.verifyOwner
    cases Policy.computeHashAsSigner (textEnv E) signer with
    | none => rfl
    | some hh =>
      dsimp only
      rw [hs.fields.ownerHash]
      split
      · rfl
      · cases (textEnv E).parsePub (signer.publicKey.getD []) with
        | none => rfl
        | some pub =>
          dsimp only
          rw [show (textEnv E).enc c.norm.withoutForOwner = (textEnv E).enc c.withoutForOwner from ko, hs.ownerSignature]
          cases (textEnv E).enc c.withoutForOwner <;> rfl

/-! ## The command and the answers -/

/-- The client sees the ID of a policy in the answers. -/
def PolShown (as : List Response) (i : Bytes) : Prop := ∃ a ∈ as, a.proofType = PoP ∧ i ∈ bytesToIDs a.policyIDs

theorem insertPolicy_eq {data : Bytes} {c : PCert} (h : readCert data = some c) (maxLen : Nat) (parts : List Nat) :
    ∃ x, document c = some (c.domain, x) ∧ insertPolicy maxLen data parts = ([.policies (some maxLen) [(c.domain, x)] 4] ++ parts.map .coalesce) ++ [.finish] := by
  obtain ⟨x, _, h1, _⟩ := C122_text data c h
  refine ⟨x, h1, ?_⟩
  unfold insertPolicy
  simp only [h, h1]

theorem polShown_iff {H : Bytes → Bytes} (hH : ∀ x, (H x).length = 32) {psl : Psl} {ops : List Op} {s : Sys} (hrun : Run H (ops ++ [.finish, .reload]) s)
    (hn : ∀ op ∈ ops, op.NoPrune) (hcm : ∀ op ∈ ops, op.Complete) (hc : Consistent H ops) {name : Bytes} {out : Option (List Response)}
    (h : GetProof H psl s.served (tableOf s.db) name out) {parts : List Bytes} (hp : parseDomainName psl name = some parts) :
    ∃ as, out = some as ∧ as.map Response.domainName = parts ∧ Accepted H as ∧ ∀ i, PolShown as i ↔ ∃ p, PolSubmitted ops p ∧ i = H p.2 ∧ ∃ m ∈ parts, H p.1 = H m := by
  obtain ⟨h1, h2⟩ := C91_end_to_end_partial H hH psl ops s hrun hn hcm hc name out h
  rw [hp] at h1
  cases out with
  | none => cases h1
  | some as =>
    simp only [Option.map_some, Option.some.injEq] at h1
    have key : ∀ a ∈ as, ∀ i, (a.proofType = PoP ∧ i ∈ bytesToIDs a.policyIDs) ↔ PolBelongs H ops a.domainName i := by
      intro a ha i
      obtain ⟨_, _, _, g4, g5⟩ := h2 as rfl a ha
      have rt : ∀ ps : List Bytes, (∀ i, i ∈ ps ↔ PolBelongs H ops a.domainName i) → bytesToIDs ps.flatten = ps := by
        intro ps hps
        rw [show ps.flatten = idsToBytes ps from rfl]
        refine C14_ids_roundtrip ps (fun x hx => ?_)
        obtain ⟨_, _, _, rfl⟩ := (hps x).1 hx
        exact hH _
      constructor
      · rintro ⟨hpt, hi⟩
        obtain ⟨_, _, ps, _, hps, he⟩ := g5 hpt
        rw [he, rt ps hps] at hi
        exact (hps i).1 hi
      · intro hb
        have hpt := g4.2 ⟨i, Or.inr hb⟩
        obtain ⟨_, _, ps, _, hps, he⟩ := g5 hpt
        refine ⟨hpt, ?_⟩
        rw [he, rt ps hps]
        exact (hps i).2 hb
    refine ⟨as, rfl, h1, fun a ha => (h2 as rfl a ha).2.2.1, fun i => ?_⟩
    constructor
    · rintro ⟨a, ha, hs⟩
      obtain ⟨p, k1, k2, k3⟩ := (key a ha i).1 hs
      exact ⟨p, k1, k3, a.domainName, by rw [← h1]; exact List.mem_map_of_mem ha, k2⟩
    · rintro ⟨p, k1, k2, m, hm, k3⟩
      rw [← h1] at hm
      obtain ⟨a, ha, rfl⟩ := List.mem_map.1 hm
      exact ⟨a, ha, (key a ha i).2 ⟨p, k1, k3, k2⟩⟩

/-- Policies are stored under the hash of their payload. -/
theorem stored_hash {H : Bytes → Bytes} {ops : List Op} {s : Sys} (h : Run H ops s) : ∀ c ∈ s.db.policies, c.id = H c.payload := by
  induction h with
  | nil => intro c hc; cases hc
  | snoc ops s s' op _ hst ih =>
    have same : s'.db.policies = s.db.policies → ∀ c ∈ s'.db.policies, c.id = H c.payload := fun e => by rw [e]; exact ih
    cases hst with
    | certs leaves chains k st hl hst =>
      refine same ?_
      unfold certSteps keepExistingSteps at hst
      dsimp only at hst
      rcases insertSteps_cases hst with ⟨_, rfl⟩ | ⟨rows, _, rfl⟩
      · rw [List.take_nil]; rfl
      · match k with
        | 0 => rfl
        | 1 => rfl
        | 2 => rfl
        | 3 => rfl
        | k + 4 =>
          have : ∀ (a b c d : DB → DB), [a, b, c, d].take (k + 4) = [a, b, c, d] := by intros; simp
          rw [this]
          rfl
    | policies keep ps k st hst =>
      intro c hc
      rcases (C115_nothing_else_changes H s.db keep ps st hst k).own c hc with h | ⟨p, _, h1, h2⟩
      · exact ih c h
      · rw [h1, h2]
    | prune cut fuel db' hp =>
      unfold pruneCerts at hp
      dsimp only at hp
      split at hp
      · cases hp
      · cases hp
        exact same rfl
    | pruneCut cut fuel db' hp => exact same rfl
    | coalesce p fuel chunk n db' _ _ _ hc =>
      unfold calcDirtyDomains at hc
      dsimp only at hc
      split at hc
      · cases hc
        exact same rfl
      · split at hc
        · cases hc
        · cases hc
          exact same rfl
    | smt max t' _ _ _ => exact same rfl
    | finish max t' _ _ _ => exact same rfl
    | reload => exact same rfl

/-- C122: in every history, each policy payload is stored under its hash. -/
theorem C122_payload_hash (H : Bytes → Bytes) (ops : List Op) (s : Sys) (h : Run H ops s) (id p : Bytes) (hs : PayloadApi.StoredIn s.db .policies id p) : id = H p := by
  obtain ⟨c, hc, rfl, rfl⟩ := hs
  exact stored_hash h c hc

theorem polSub_command {data : Bytes} {c : PCert} (h : readCert data = some c) {x : Bytes} (hx : document c = some (c.domain, x)) (ops : List Op) (maxLen : Nat) (parts : List Nat) :
    PolSubmitted (ops ++ ([.policies (some maxLen) [(c.domain, x)] 4] ++ parts.map .coalesce)) (c.domain, x) :=
  ⟨some maxLen, [(c.domain, x)], 4, by simp, List.mem_singleton.2 rfl⟩

/-- C122 (partial: as C91, without pruning and interruptions, and for domains without `*.` and `www.`): when the command has run, after whatever was done before, and the map server has loaded the
tree, a client that asks for the domain of the policy certificate gets accepted answers that contain its ID; and the payload it gets for this ID has this hash: it is
the text of the policy, unless SHA256 has a collision, and the client reads from it the certificate that was in the file. -/
theorem C122_shown_partial (H : Bytes → Bytes) (hH : ∀ x, (H x).length = 32) (psl : Psl) (hpsl : IsPsl psl) (ops : List Op) (maxLen : Nat) (data : Bytes) (parts : List Nat) (c : PCert)
    (hr : readCert data = some c) (s : Sys) (hrun : Run H (ops ++ insertPolicy maxLen data parts ++ [.reload]) s)
    (hn : ∀ op ∈ ops, op.NoPrune) (hcm : ∀ op ∈ ops, op.Complete) (hc : Consistent H (ops ++ insertPolicy maxLen data parts))
    (hparse : (parseDomainName psl c.domain).isSome = true) (hplain : removeWildCardAndWWW c.domain = c.domain)
    (out : Option (List Response)) (h : GetProof H psl s.served (tableOf s.db) c.domain out)
    (query : List Bytes → List (Bytes × Bytes)) (hq : PayloadApi.Delivers s.db .policies query) :
    ∃ as i, out = some as ∧ Accepted H as ∧ PolShown as i ∧
      ∃ body y, PayloadApi.apiGetPayloads query (PayloadApi.hexEncode i) = .ok body ∧ PayloadApi.readBody body = some [some y] ∧ H y = i ∧
        ∃ x c', document c = some (c.domain, x) ∧ i = H x ∧ readCert x = some c' ∧ SameCert c' c := by
  obtain ⟨ps, hp⟩ := Option.isSome_iff_exists.1 hparse
  obtain ⟨x, hx, he⟩ := insertPolicy_eq hr maxLen parts
  have hsub := polSub_command hr hx ops maxLen parts
  generalize hpre : ([.policies (some maxLen) [(c.domain, x)] 4] ++ parts.map .coalesce : List Op) = pre at he hsub
  have hpre' : ∀ op ∈ pre, op.NoPrune ∧ op.Complete := by
    subst hpre
    intro op ho
    rcases List.mem_append.1 ho with ho | ho
    · cases List.mem_singleton.1 ho
      exact ⟨True.intro, Nat.le_refl 4⟩
    · obtain ⟨p, _, rfl⟩ := List.mem_map.1 ho
      exact ⟨True.intro, True.intro⟩
  have hn' : ∀ op ∈ ops ++ pre, op.NoPrune := fun op ho => (List.mem_append.1 ho).elim (hn op) (fun h => (hpre' op h).1)
  have hcm' : ∀ op ∈ ops ++ pre, op.Complete := fun op ho => (List.mem_append.1 ho).elim (hcm op) (fun h => (hpre' op h).2)
  have hc' : Consistent H (ops ++ pre) := hc.mono (fun op ho => by
    rw [he]
    rcases List.mem_append.1 ho with h | h <;> simp [h])
  have hrun' : Run H ((ops ++ pre) ++ [.finish, .reload]) s := by
    rw [he] at hrun
    have e : ops ++ (pre ++ [Op.finish]) ++ [.reload] = (ops ++ pre) ++ [.finish, .reload] := by simp
    rwa [e] at hrun
  obtain ⟨as, h1, h2, h3, h4⟩ := polShown_iff hH hrun' hn' hcm' hc' h hp
  have hshown : PolShown as (H x) := (h4 _).2 ⟨_, hsub, rfl, c.domain, (C121_own_name hpsl hp).2 hplain, rfl⟩
  refine ⟨as, H x, h1, h3, hshown, ?_⟩
  have hall : ∀ op ∈ (ops ++ pre) ++ [.finish, .reload], op.NoPrune := by
    intro op ho
    rcases List.mem_append.1 ho with h | h
    · exact hn' op h
    · simp only [List.mem_cons, List.not_mem_nil, or_false] at h
      rcases h with rfl | rfl <;> exact True.intro
  have hkeys := (safe_sinv hH (noPrune_safe hH hrun' hall).1).inv.keys
  have huniq : ∀ i p q, PayloadApi.StoredIn s.db .policies i p → PayloadApi.StoredIn s.db .policies i q → p = q := by
    rintro i p q ⟨a, ha, rfl, rfl⟩ ⟨b, hb, he, rfl⟩
    rw [List.inj_on_of_nodup_map hkeys.policies hb ha he]
  obtain ⟨body, answers, k1, k2, k3, k4⟩ := PayloadApi.C78_answer_partial hq huniq [H x] (by simp) (fun i hi => by rw [List.mem_singleton.1 hi]; exact hH _)
  obtain ⟨a, k5, k6⟩ := k4 0 (H x) rfl
  have hstored : ∃ y, PayloadApi.StoredIn s.db .policies (H x) y := by
    have hh := run_holds hH hrun' hall (by
      intro op ho
      rcases List.mem_append.1 ho with h | h
      · exact hcm' op h
      · simp only [List.mem_cons, List.not_mem_nil, or_false] at h
        rcases h with rfl | rfl <;> exact True.intro) (by
      have hb : ∀ l c, Submitted ((ops ++ pre) ++ [.finish, .reload]) l c → Submitted (ops ++ pre) l c := by
        rintro l c ⟨a, b, k, h2, h3⟩
        rcases List.mem_append.1 h2 with h2 | h2
        · exact ⟨a, b, k, h2, h3⟩
        · simp at h2
      have hb2 : ∀ p, PolSubmitted ((ops ++ pre) ++ [.finish, .reload]) p → PolSubmitted (ops ++ pre) p := by
        rintro p ⟨a, b, k, h2, h3⟩
        rcases List.mem_append.1 h2 with h2 | h2
        · exact ⟨a, b, k, h2, h3⟩
        · simp at h2
      exact ⟨fun l c l' c' hl hl' => hc'.certs l c l' c' (hb _ _ hl) (hb _ _ hl'), fun p p' hp hp' => hc'.policies p p' (hb2 _ hp) (hb2 _ hp')⟩)
    obtain ⟨a, b, k, h2, h3⟩ := hsub
    obtain ⟨r, hr1, hr2⟩ := (hh.pols (H x)).2 ⟨(c.domain, x), ⟨a, b, k, List.mem_append_left _ h2, h3⟩, rfl⟩
    exact ⟨r.payload, r, hr1, hr2, rfl⟩
  obtain ⟨y, hy⟩ := hstored
  have hay : a = some y := (k6 y).2 hy
  subst hay
  obtain ⟨x', c', m1, m2, m3⟩ := C122_text data c hr
  rw [hx] at m1
  simp only [Option.some.injEq, Prod.mk.injEq, true_and] at m1
  subst m1
  refine ⟨body, y, ?_, ?_, (C122_payload_hash H _ s hrun (H x) y hy).symm, x, c', hx, rfl, m2, m3⟩
  · rw [← k1]
    simp
  · rw [k2]
    match answers, k3, k5 with
    | [b], _, k5 => simp only [List.getElem?_cons_zero, Option.some.injEq] at k5; rw [k5]

/-- C122 is violated for wildcards and `www.`: after the command has run with a policy certificate for a domain with `*`, no client sees it, whatever name it asks for; and one for a domain that
begins with `www.` is not seen by clients that ask for this domain (unless hashes collide), although all answers are accepted. -/
theorem C122_wildcard_violated (H : Bytes → Bytes) (hH : ∀ x, (H x).length = 32) (psl : Psl) (hpsl : IsPsl psl) (ops : List Op) (maxLen : Nat) (data : Bytes) (parts : List Nat) (c : PCert)
    (hr : readCert data = some c) (s : Sys) (hrun : Run H (ops ++ insertPolicy maxLen data parts ++ [.reload]) s)
    (hn : ∀ op ∈ ops, op.NoPrune) (hcm : ∀ op ∈ ops, op.Complete) (hc : Consistent H (ops ++ insertPolicy maxLen data parts))
    (name : Bytes) (hbad : star ∈ c.domain ∨ (name = c.domain ∧ removeWildCardAndWWW c.domain ≠ c.domain))
    (hno : ∀ ps, parseDomainName psl name = some ps → ∀ m ∈ ps, H c.domain = H m → c.domain = m)
    (out : Option (List Response)) (h : GetProof H psl s.served (tableOf s.db) name out) (x : Bytes) (hx : document c = some (c.domain, x)) :
    ∀ as, out = some as → Accepted H as ∧ ¬ PolShown as (H x) := by
  intro as has
  cases hp : parseDomainName psl name with
  | none =>
    unfold GetProof at h
    rw [hp] at h
    rw [show out = none from h] at has
    cases has
  | some ps =>
    obtain ⟨x', hx', he⟩ := insertPolicy_eq hr maxLen parts
    rw [hx] at hx'
    simp only [Option.some.injEq, Prod.mk.injEq, true_and] at hx'
    subst hx'
    have hsub := polSub_command hr hx ops maxLen parts
    generalize hpre : ([.policies (some maxLen) [(c.domain, x)] 4] ++ parts.map .coalesce : List Op) = pre at he hsub
    have hpre' : ∀ op ∈ pre, op.NoPrune ∧ op.Complete := by
      subst hpre
      intro op ho
      rcases List.mem_append.1 ho with ho | ho
      · cases List.mem_singleton.1 ho
        exact ⟨True.intro, Nat.le_refl 4⟩
      · obtain ⟨p, _, rfl⟩ := List.mem_map.1 ho
        exact ⟨True.intro, True.intro⟩
    have hc' : Consistent H (ops ++ pre) := hc.mono (fun op ho => by
      rw [he]
      rcases List.mem_append.1 ho with h | h <;> simp [h])
    have hrun' : Run H ((ops ++ pre) ++ [.finish, .reload]) s := by
      rw [he] at hrun
      have e : ops ++ (pre ++ [Op.finish]) ++ [.reload] = (ops ++ pre) ++ [.finish, .reload] := by simp
      rwa [e] at hrun
    obtain ⟨as', h1, h2, h3, h4⟩ := polShown_iff hH hrun' (fun op ho => (List.mem_append.1 ho).elim (hn op) (fun h => (hpre' op h).1))
      (fun op ho => (List.mem_append.1 ho).elim (hcm op) (fun h => (hpre' op h).2)) hc' h hp
    rw [has, Option.some.injEq] at h1
    subst h1
    refine ⟨h3, fun hs => ?_⟩
    obtain ⟨p, k1, k2, m, k3, k4⟩ := (h4 _).1 hs
    have k5 : H p.1 = H c.domain := hc'.policies p (c.domain, x) k1 hsub k2.symm
    have k6 := hno ps hp m k3 (k5.symm.trans k4)
    subst k6
    rcases hbad with hb | ⟨rfl, hb⟩
    · exact C121_no_wildcard_answers hpsl hp k3 hb
    · exact hb ((C121_own_name hpsl hp).1 k3)

/-- C122 (partial: without pruning and interruptions before): the command can always run to its end. -/
theorem C122_completes_partial (H : Bytes → Bytes) (hH : ∀ x, (H x).length = 32) (ops : List Op) (s : Sys) (hrun : Run H ops s) (hn : ∀ op ∈ ops, op.NoPrune)
    (hcm : ∀ op ∈ ops, op.Complete) (maxLen : Nat) (data : Bytes) (c : PCert) (hr : readCert data = some c) :
    ∃ parts s', Run H (ops ++ insertPolicy maxLen data parts ++ [.reload]) s' := by
  obtain ⟨x, hx, _⟩ := insertPolicy_eq hr maxLen []
  obtain ⟨st, hst⟩ := C115_no_panic H s.db (some maxLen) [(c.domain, x)]
  have r1 := hrun.more (.policies (some maxLen) [(c.domain, x)] 4 st hst)
  obtain ⟨parts, s', h⟩ := C91_update_completes_partial H hH _ _ r1
    (fun op ho => by
      rcases List.mem_append.1 ho with h | h
      · exact hn op h
      · cases List.mem_singleton.1 h; exact True.intro)
    (fun op ho => by
      rcases List.mem_append.1 ho with h | h
      · exact hcm op h
      · cases List.mem_singleton.1 h; exact Nat.le_refl 4)
  obtain ⟨x', hx', he⟩ := insertPolicy_eq hr maxLen parts
  rw [hx] at hx'
  simp only [Option.some.injEq, Prod.mk.injEq, true_and] at hx'
  subst hx'
  refine ⟨parts, s', ?_⟩
  rw [he]
  have e : ops ++ ([.policies (some maxLen) [(c.domain, x)] 4] ++ parts.map .coalesce ++ [Op.finish]) ++ [.reload]
      = ops ++ [.policies (some maxLen) [(c.domain, x)] 4] ++ parts.map .coalesce ++ [.finish, .reload] := by simp
  rw [e]
  exact h

/-- C122: a file that is not a policy certificate changes nothing. -/
theorem C122_rejected (maxLen : Nat) (data : Bytes) (parts : List Nat) (h : readCert data = none) : insertPolicy maxLen data parts = [] := by
  unfold insertPolicy
  simp only [h]

/-- The state after the command: nothing is dirty. -/
theorem after_command {H : Bytes → Bytes} {ops : List Op} {s : Sys} (h : Run H (ops ++ [.finish]) s) : s.db.dirty = [] := by
  generalize hl : ops ++ [Op.finish] = l at h
  cases h with
  | nil => simp at hl
  | snoc l1 s1 _ op1 hr1 hst1 =>
    obtain ⟨_, h2⟩ := List.append_inj' hl rfl
    cases h2
    cases hst1
    rfl

/-- C122 (partial: as C91): running the command again, with the same file or with another file that has the same certificate, changes neither the payloads nor the tree and leaves nothing to do. -/
theorem C122_again_partial (H : Bytes → Bytes) (hH : ∀ x, (H x).length = 32) (ops : List Op) (maxLen : Nat) (hmax : 0 < maxLen) (data data' : Bytes) (parts parts' : List Nat) (c c' : PCert)
    (hr : readCert data = some c) (hr' : readCert data' = some c') (heq : c.norm = c'.norm) (s s' : Sys) (hrun : Run H (ops ++ insertPolicy maxLen data parts) s)
    (hn : ∀ op ∈ ops, op.NoPrune) (hcm : ∀ op ∈ ops, op.Complete) (hc : Consistent H (ops ++ insertPolicy maxLen data parts))
    (hsteps : IngestCmd.Steps H s ((insertPolicy maxLen data' parts').map .other) s') :
    s'.tree = s.tree ∧ s'.db.certs = s.db.certs ∧ s'.db.domainCerts = s.db.domainCerts ∧ s'.db.dirty = [] ∧ ∀ r, r ∈ s'.db.payloads ↔ r ∈ s.db.payloads := by
  obtain ⟨x, hx, he⟩ := insertPolicy_eq hr maxLen parts
  obtain ⟨x', hx', he'⟩ := insertPolicy_eq hr' maxLen parts'
  have hxx : c.domain = c'.domain ∧ x = x' := by
    have := (C122_same_text data data' c c' hr hr').2 heq
    rw [hx, hx'] at this
    simpa using this
  have hall : ∀ op ∈ ops ++ insertPolicy maxLen data parts, op.NoPrune ∧ op.Complete := by
    intro op ho
    rcases List.mem_append.1 ho with h | h
    · exact ⟨hn op h, hcm op h⟩
    · rw [he] at h
      simp only [List.cons_append, List.nil_append, List.mem_cons, List.mem_append, List.mem_map, List.not_mem_nil, or_false] at h
      rcases h with rfl | ⟨_, _, rfl⟩ | rfl
      · exact ⟨True.intro, Nat.le_refl 4⟩
      · exact ⟨True.intro, True.intro⟩
      · exact ⟨True.intro, True.intro⟩
  have hkeys := (safe_sinv hH (noPrune_safe hH hrun (fun op h => (hall op h).1)).1).inv.keys
  have hh := run_holds hH hrun (fun op h => (hall op h).1) (fun op h => (hall op h).2) hc
  have hd : s.db.dirty = [] := by
    rw [he, ← List.append_assoc] at hrun
    exact after_command hrun
  have hhas : HasPolicy s.db (H x') := by
    rw [← hxx.2]
    refine (hh.pols (H x)).2 ⟨(c.domain, x), ⟨some maxLen, [(c.domain, x)], 4, ?_, List.mem_singleton.2 rfl⟩, rfl⟩
    rw [he]
    simp
  rw [he', List.map_append, List.map_append, List.append_assoc] at hsteps
  have first : ∀ (l : List IngestCmd.Op) (t : Sys), IngestCmd.Steps H s ([.other (.policies (some maxLen) [(c'.domain, x')] 4)] ++ l) t → IngestCmd.Steps H s l t := by
    intro l
    induction l using List.reverseRecOn with
    | nil =>
      intro t ht
      rw [List.append_nil] at ht
      generalize hl : ([.other (.policies (some maxLen) [(c'.domain, x')] 4)] : List IngestCmd.Op) = l at ht
      cases ht with
      | nil => cases hl
      | @snoc s1 _ ops1 op1 h1 h2 =>
        have hl' : ([] : List IngestCmd.Op) ++ [.other (.policies (some maxLen) [(c'.domain, x')] 4)] = ops1 ++ [op1] := hl
        obtain ⟨e1, e2⟩ := List.append_inj' hl' rfl
        cases e1
        cases e2
        generalize hl2 : ([] : List IngestCmd.Op) = l2 at h1
        cases h1 with
        | nil =>
          cases h2 with
          | other op s2 hst =>
            cases hst with
            | policies keep ps k st hst =>
              rw [C115_stored_skipped H s.db maxLen [(c'.domain, x')] hmax (fun p hp => by rw [List.mem_singleton.1 hp]; exact hhas), Option.some.injEq] at hst
              subst hst
              exact .nil s
        | snoc ops2 op2 _ _ => simp at hl2
    | append_singleton l op ih =>
      intro t ht
      rw [← List.append_assoc] at ht
      generalize hl : ([.other (.policies (some maxLen) [(c'.domain, x')] 4)] ++ l) ++ [op] = l' at ht
      cases ht with
      | nil => simp at hl
      | @snoc s1 _ ops1 op1 h1 h2 =>
        obtain ⟨e1, e2⟩ := List.append_inj' hl rfl
        cases e2
        subst e1
        exact .snoc l op (ih s1 h1) h2
  obtain ⟨a1, a2, a3, _, a5, a6⟩ := IngestCmd.idle_steps (first _ _ hsteps) hkeys hd (by
    intro op ho
    simp only [List.map_map, List.map_cons, List.map_nil, List.mem_append, List.mem_map, List.mem_singleton] at ho
    rcases ho with ⟨_, _, rfl⟩ | rfl <;> exact True.intro)
  exact ⟨a6, a1, a2, a3, a5⟩

/-! ## Examples -/

/-- A file with spaces, an unknown field and fields in another order than the one they are written in; the certificate has no signature at all. -/
def exFile : Bytes := Domain.asc "{ \"O\": {\"Unknown\": [1], \"Domain\": \"a.com\", \"Version\": 7}, \"T\": \"*pc\" }"

def exFile2 : Bytes := Domain.asc "{\"T\":\"*pc\",\"O\":{\"Version\":7,\"Domain\":\"a.com\"}}"

def exFile3 : Bytes := Domain.asc "{\"T\":\"*pc\",\"O\":{\"Domain\":\"*.a.com\"}}"

theorem exFile_read : ∃ c, readCert exFile = some c ∧ c.domain = Domain.asc "a.com" ∧ c.version = 7 := by
  cases h : readCert exFile with
  | none =>
    have : (readCert exFile).isSome = true := by decide +kernel
    rw [h] at this
    cases this
  | some c =>
    have h1 : (readCert exFile).map (fun c => (c.domain, c.version)) = some (Domain.asc "a.com", 7) := by decide +kernel
    rw [h] at h1
    simp only [Option.map_some, Option.some.injEq, Prod.mk.injEq] at h1
    exact ⟨c, rfl, h1.1, h1.2⟩

example : (readCert exFile2).map (fun c => (c.domain, c.version)) = some (Domain.asc "a.com", 7) ∧ (readCert exFile3).map (fun c => c.domain) = some (Domain.asc "*.a.com") ∧
    readCert (Domain.asc "{\"T\":\"*pcrev\",\"O\":{\"Domain\":\"a.com\"}}") = none := by
  refine ⟨by decide +kernel, by decide +kernel, ?_⟩
  rw [← Option.isNone_iff_eq_none]
  decide +kernel

/-- The command runs on a new map server, and the hypotheses of C122_shown_partial hold. -/
example : ∃ c parts s, readCert exFile = some c ∧ Run Responder.exH ([] ++ insertPolicy 1024 exFile parts ++ [.reload]) s ∧ Consistent Responder.exH ([] ++ insertPolicy 1024 exFile parts) ∧
    (parseDomainName Domain.exPsl c.domain).isSome = true ∧ removeWildCardAndWWW c.domain = c.domain ∧ PayloadApi.Delivers s.db .policies (PayloadApi.selected s.db .policies) := by
  obtain ⟨c, hc, hd, _⟩ := exFile_read
  obtain ⟨parts, s, hr⟩ := C122_completes_partial Responder.exH Responder.exH_length [] start .nil (by simp) (by simp) 1024 exFile c hc
  obtain ⟨x, _, he⟩ := insertPolicy_eq hc 1024 parts
  refine ⟨c, parts, s, hc, hr, ?_, by rw [hd]; decide +kernel, by rw [hd]; decide +kernel, fun _ => .refl _⟩
  rw [he, List.nil_append]
  have h1 : ∀ l ch, ¬ Submitted (([.policies (some 1024) [(c.domain, x)] 4] ++ parts.map .coalesce) ++ [.finish]) l ch := by
    rintro l ch ⟨a, b, k, h2, h3⟩
    simp at h2
  refine ⟨fun l c l' c' hl => absurd hl (h1 l c), ?_⟩
  rintro p p' ⟨a, b, k, h2, h3⟩ ⟨a', b', k', h2', h3'⟩ _
  simp only [List.cons_append, List.nil_append, List.mem_cons, List.mem_append, List.mem_map, reduceCtorEq, and_false, exists_false, List.not_mem_nil, or_false, Op.policies.injEq] at h2 h2'
  obtain ⟨_, rfl, _⟩ := h2
  obtain ⟨_, rfl, _⟩ := h2'
  rw [List.mem_singleton.1 h3, List.mem_singleton.1 h3']

end Fpki.PolicyFile
