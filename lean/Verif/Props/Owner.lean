import Verif.Model.Owner
import Verif.Props.PolicyCert
import Verif.Props.Pca

/-!
# C93, C94: the domain owner's requests, and the time stamps of log servers
-/
namespace Fpki.Owner

open Fpki.Policy Fpki.Pca
open Fpki.Domain (asc)

variable {Key Pub : Type}

/-! ## Specification -/

/-- What a domain owner's program does: it registers a certificate and key for a domain, or asks for a request. -/
inductive Op (Key : Type)
  | register (d : Bytes) (c : Cert) (k : Key)
  | request (fresh : Option Key) (d : Bytes) (version : Int) (n1 n2 n3 : Time)

/-- One operation, with the answer (`none` for `register`). -/
def step (E : Env Key Pub) (pubOf : Key → Option Bytes) (o : Owner Key) : Op Key → Option (Option Fields) × Owner Key
  | .register d c k => (none, setRoot o d c k)
  | .request fresh d v n1 n2 n3 => (some (generate E pubOf o fresh d v n1 n2 n3).1, (generate E pubOf o fresh d v n1 n2 n3).2)

/-- The owner after a history that begins with `NewDomainOwner`. -/
def after (E : Env Key Pub) (pubOf : Key → Option Bytes) (ops : List (Op Key)) : Owner Key := ops.foldl (fun o op => (step E pubOf o op).2) newOwner

/-- `c`, `k` is what was registered last for `d`: nothing was registered for `d` later. -/
def LastRegistered (ops : List (Op Key)) (d : Bytes) (c : Cert) (k : Key) : Prop :=
  ∃ before later : List (Op Key), ops = before ++ .register d c k :: later ∧ ∀ c' k', Op.register d c' k' ∉ later

/-- Nothing was registered for `d`. -/
def NeverRegistered (ops : List (Op Key)) (d : Bytes) : Prop := ∀ c k, Op.register d c k ∉ ops

/-- A client's check of a time stamp `s` on the certificate `pc` with the log's key: the signed input is rebuilt from the time stamp and the certificate, without the signature. -/
def Verifies (E : Env Key Pub) (encIn : SptInput → Option Bytes) (pub : Pub) (pc : Cert) (s : Spct) : Prop :=
  ∃ text m : Bytes, E.enc pc = some text ∧ encIn ⟨s.version, s.logID, s.addedTS, none, text⟩ = some m ∧ verifySignedBytes E m (s.signature.getD []) pub = true

/-- The JSON text of a signature input depends on what it shows and determines it. -/
structure FaithfulIn (encIn : SptInput → Option Bytes) : Prop where
  shown : ∀ a b : SptInput, a.norm = b.norm → encIn a = encIn b
  determines : ∀ (a b : SptInput) (x : Bytes), encIn a = some x → encIn b = some x → a.norm = b.norm

/-- `m` is the message that `SignPolicyCertificateTimestamp` signs for these arguments. -/
def SptMessage (E : Env Key Pub) (encIn : SptInput → Option Bytes) (pc : Cert) (version : Int) (logId : Option Bytes) (now : Time) (m : Bytes) : Prop :=
  ∃ text, E.enc pc = some text ∧ encIn ⟨version, logId, now, none, text⟩ = some m

/-! ## C93 -/

theorem generate_owner (E : Env Key Pub) (pubOf : Key → Option Bytes) (o : Owner Key) (fresh : Option Key) (d : Bytes) (v : Int) (n1 n2 n3 : Time) :
    (generate E pubOf o fresh d v n1 n2 n3).2 = o := by
  unfold generate
  split
  · rfl
  · split
    · rfl
    · split <;> rfl

theorem generate_some {E : Env Key Pub} {pubOf : Key → Option Bytes} {o : Owner Key} {fresh : Option Key} {d : Bytes} {v : Int} {n1 n2 n3 : Time} {r : Fields}
    (h : (generate E pubOf o fresh d v n1 n2 n3).1 = some r) :
    ∃ k pk, fresh = some k ∧ pubOf k = some pk ∧
      ((o.roots d = none ∧ r = freshRequest v d pk n1 n2 n3) ∨ ∃ root, o.roots d = some root ∧ signAsOwner E root.1 root.2 (freshRequest v d pk n1 n2 n3) = some r) := by
  unfold generate at h
  split at h
  · cases h
  · rename_i k
    split at h
    · cases h
    · rename_i pk hpk
      refine ⟨k, pk, rfl, hpk, ?_⟩
      split at h
      · rename_i hr
        cases h
        exact Or.inl ⟨hr, rfl⟩
      · rename_i root hr
        exact Or.inr ⟨root, hr, h⟩

theorem signAsOwner_fields {E : Env Key Pub} {owner : Cert} {key : Key} {req req' : Fields} (h : signAsOwner E owner key req = some req') :
    owner.canOwn = true ∧ ∃ hh s, req' = { req with ownerHash := some hh, ownerSignature := some s } := by
  unfold signAsOwner at h
  split at h
  · cases h
  · split at h
    · cases h
    · rename_i hc
      split at h
      · cases h
      · split at h
        · cases h
        · split at h
          · cases h
          · cases h
            exact ⟨by simpa using hc, _, _, rfl⟩

theorem after_snoc (E : Env Key Pub) (pubOf : Key → Option Bytes) (ops : List (Op Key)) (op : Op Key) : after E pubOf (ops ++ [op]) = (step E pubOf (after E pubOf ops) op).2 := by
  unfold after
  rw [List.foldl_append]
  rfl

theorem snoc_split {α : Type} {ops before later : List α} {op x : α} (h : ops ++ [op] = before ++ x :: later) :
    (later = [] ∧ op = x ∧ ops = before) ∨ ∃ l, later = l ++ [op] ∧ ops = before ++ x :: l := by
  rcases List.eq_nil_or_concat later with rfl | ⟨l, y, rfl⟩
  · have := List.append_inj' h rfl
    exact Or.inl ⟨rfl, (List.cons.inj this.2).1, this.1⟩
  · rw [List.concat_eq_append] at h ⊢
    rw [show before ++ x :: (l ++ [y]) = (before ++ x :: l) ++ [y] by simp] at h
    have := List.append_inj' h rfl
    refine Or.inr ⟨l, ?_, this.1⟩
    rw [(List.cons.inj this.2).1]

theorem last_snoc_request (ops : List (Op Key)) (fresh : Option Key) (x : Bytes) (v : Int) (n1 n2 n3 : Time) (d : Bytes) (c : Cert) (k : Key) :
    LastRegistered (ops ++ [.request fresh x v n1 n2 n3]) d c k ↔ LastRegistered ops d c k := by
  constructor
  · rintro ⟨b, l, he, hl⟩
    rcases snoc_split he with ⟨_, h2, _⟩ | ⟨l', rfl, h2⟩
    · cases h2
    · exact ⟨b, l', h2, fun c' k' hm => hl c' k' (List.mem_append_left _ hm)⟩
  · rintro ⟨b, l, rfl, hl⟩
    refine ⟨b, l ++ [.request fresh x v n1 n2 n3], by simp, fun c' k' hm => ?_⟩
    rcases List.mem_append.1 hm with hm | hm
    · exact hl c' k' hm
    · cases List.mem_singleton.1 hm

theorem last_snoc_register (ops : List (Op Key)) (x : Bytes) (cx : Cert) (kx : Key) (d : Bytes) (c : Cert) (k : Key) :
    LastRegistered (ops ++ [.register x cx kx]) d c k ↔ (x = d ∧ cx = c ∧ kx = k) ∨ (x ≠ d ∧ LastRegistered ops d c k) := by
  constructor
  · rintro ⟨b, l, he, hl⟩
    rcases snoc_split he with ⟨_, h2, _⟩ | ⟨l', rfl, h2⟩
    · cases h2
      exact Or.inl ⟨rfl, rfl, rfl⟩
    · refine Or.inr ⟨?_, b, l', h2, fun c' k' hm => hl c' k' (List.mem_append_left _ hm)⟩
      rintro rfl
      exact hl cx kx (List.mem_append_right _ (List.mem_singleton.2 rfl))
  · rintro (⟨rfl, rfl, rfl⟩ | ⟨hne, b, l, rfl, hl⟩)
    · exact ⟨ops, [], rfl, fun _ _ hm => by cases hm⟩
    · refine ⟨b, l ++ [.register x cx kx], by simp, fun c' k' hm => ?_⟩
      rcases List.mem_append.1 hm with hm | hm
      · exact hl c' k' hm
      · cases List.mem_singleton.1 hm
        exact hne rfl

theorem reverseInd {α : Type} {P : List α → Prop} (h0 : P []) (hs : ∀ l a, P l → P (l ++ [a])) (l : List α) : P l := by
  have : ∀ n (l : List α), l.length = n → P l := by
    intro n
    induction n with
    | zero => intro l hl; rw [List.length_eq_zero_iff.1 hl]; exact h0
    | succ n ih =>
      intro l hl
      rcases List.eq_nil_or_concat l with rfl | ⟨l', a, rfl⟩
      · exact h0
      · rw [List.concat_eq_append] at hl ⊢
        exact hs l' a (ih l' (by simpa using hl))
  exact this _ l rfl

theorem after_roots (E : Env Key Pub) (pubOf : Key → Option Bytes) (ops : List (Op Key)) :
    ∀ d c k, (after E pubOf ops).roots d = some (c, k) ↔ LastRegistered ops d c k := by
  refine reverseInd (P := fun ops => ∀ d c k, (after E pubOf ops).roots d = some (c, k) ↔ LastRegistered ops d c k) ?_ ?_ ops
  · intro d c k
    constructor
    · intro h
      exact absurd h (by simp [after, newOwner])
    · rintro ⟨b, l, h, _⟩
      have := congrArg List.length h
      simp at this
  · intro ops op ih d c k
    rw [after_snoc]
    cases op with
    | register x cx kx =>
      rw [last_snoc_register, ← ih d c k]
      show (if d = x then some (cx, kx) else (after E pubOf ops).roots d) = some (c, k) ↔ _
      by_cases hx : d = x
      · rw [if_pos hx]
        constructor
        · intro h
          cases h
          exact Or.inl ⟨hx.symm, rfl, rfl⟩
        · rintro (⟨_, rfl, rfl⟩ | ⟨hne, _⟩)
          · rfl
          · exact absurd hx.symm hne
      · rw [if_neg hx]
        constructor
        · exact fun h => Or.inr ⟨fun e => hx e.symm, h⟩
        · rintro (⟨e, _⟩ | ⟨_, h⟩)
          · exact absurd e.symm hx
          · exact h
    | request fresh x v n1 n2 n3 =>
      rw [last_snoc_request, ← ih d c k]
      show (generate E pubOf (after E pubOf ops) fresh x v n1 n2 n3).2.roots d = _ ↔ _
      rw [generate_owner]

theorem never_iff (ops : List (Op Key)) (d : Bytes) : (∀ c k, ¬ LastRegistered ops d c k) ↔ NeverRegistered ops d := by
  refine reverseInd (P := fun ops => (∀ c k, ¬ LastRegistered ops d c k) ↔ NeverRegistered ops d) ?_ ?_ ops
  · constructor
    · intro _ c k hm
      cases hm
    · rintro _ c k ⟨b, l, h, _⟩
      have := congrArg List.length h
      simp at this
  · intro ops op ih
    cases op with
    | register x cx kx =>
      constructor
      · intro h c k hm
        have hx : x ≠ d := by
          rintro rfl
          exact h cx kx ((last_snoc_register ops x cx kx x cx kx).2 (Or.inl ⟨rfl, rfl, rfl⟩))
        rcases List.mem_append.1 hm with hm | hm
        · exact ih.1 (fun c k hl => h c k ((last_snoc_register ops x cx kx d c k).2 (Or.inr ⟨hx, hl⟩))) c k hm
        · cases List.mem_singleton.1 hm
          exact hx rfl
      · rintro h c k hl
        rcases (last_snoc_register ops x cx kx d c k).1 hl with ⟨rfl, rfl, rfl⟩ | ⟨_, hl⟩
        · exact h cx kx (List.mem_append_right _ (List.mem_singleton.2 rfl))
        · exact ih.2 (fun c k hm => h c k (List.mem_append_left _ hm)) c k hl
    | request fresh x v n1 n2 n3 =>
      constructor
      · intro h c k hm
        rcases List.mem_append.1 hm with hm | hm
        · exact ih.1 (fun c k hl => h c k ((last_snoc_request ops fresh x v n1 n2 n3 d c k).2 hl)) c k hm
        · cases List.mem_singleton.1 hm
      · intro h c k hl
        exact ih.2 (fun c k hm => h c k (List.mem_append_left _ hm)) c k ((last_snoc_request ops fresh x v n1 n2 n3 d c k).1 hl)

/-- C93 (partial: what holds): after any history of registrations and requests, a request is for the domain, the version and the new key asked for; it has no owner signature exactly if nothing was ever registered for this very domain; otherwise its signature was made with, and verifies with, the certificate and key registered last for it. -/
theorem C93_request_partial (E : Env Key Pub) (hf : E.Faithful) (pubOf : Key → Option Bytes) (ops : List (Op Key)) (fresh : Option Key) (d : Bytes) (v : Int) (n1 n2 n3 : Time) (r : Fields)
    (h : (generate E pubOf (after E pubOf ops) fresh d v n1 n2 n3).1 = some r) :
    (∃ k pk, fresh = some k ∧ pubOf k = some pk ∧ r.publicKey = some pk) ∧ r.domain = d ∧ r.version = v ∧ r.notBefore = n1 ∧ r.timeStamp = n3 ∧ r.raw = none ∧
    (NeverRegistered ops d → r.ownerSignature = none ∧ r.ownerHash = none) ∧
    (∀ c k, LastRegistered ops d c k → c.canOwn = true ∧ r.ownerSignature ≠ none ∧ computeHashAsSigner E c = r.ownerHash ∧
      (∀ m, OwnerMessage E r (r.ownerHash.getD []) m → E.sign k m = r.ownerSignature) ∧
      ∀ pub, E.KeyOf c k pub → verifyOwnerRequest E c r = true) := by
  obtain ⟨k, pk, e1, e2, hc⟩ := generate_some h
  rcases hc with ⟨hn, rfl⟩ | ⟨⟨c, ck⟩, hr, hs⟩
  · refine ⟨⟨k, pk, e1, e2, rfl⟩, rfl, rfl, rfl, rfl, rfl, fun _ => ⟨rfl, rfl⟩, fun c' k' hl => ?_⟩
    rw [(after_roots E pubOf ops d c' k').2 hl] at hn
    cases hn
  · obtain ⟨hcan, hh, s, e3⟩ := signAsOwner_fields hs
    refine ⟨⟨k, pk, e1, e2, by rw [e3]; rfl⟩, by rw [e3]; rfl, by rw [e3]; rfl, by rw [e3]; rfl, by rw [e3]; rfl, by rw [e3]; rfl, fun hnev => ?_, fun c' k' hl => ?_⟩
    · exact absurd ((after_roots E pubOf ops d c ck).1 hr) ((never_iff ops d).2 hnev c ck)
    · rw [(after_roots E pubOf ops d c' k').2 hl] at hr
      cases hr
      refine ⟨hcan, by rw [e3]; simp, ?_, ?_, fun pub hk => (C45_signed_verifies E hk hs hf none none [] none []).1⟩
      · unfold signAsOwner at hs
        split at hs
        · cases hs
        · split at hs
          · cases hs
          · split at hs
            · cases hs
            · rename_i h' hh'
              split at hs
              · cases hs
              · split at hs
                · cases hs
                · cases hs
                  exact hh'
      · intro m hm
        unfold signAsOwner at hs
        split at hs
        · cases hs
        · split at hs
          · cases hs
          · split at hs
            · cases hs
            · rename_i h' hh'
              split at hs
              · cases hs
              · rename_i m' hm'
                split at hs
                · cases hs
                · rename_i s' hs'
                  cases hs
                  have : m' = m := by
                    unfold OwnerMessage at hm
                    have hm2 : E.enc (certFromRequest { freshRequest v d pk n1 n2 n3 with ownerHash := some h' }) = some m := hm
                    rw [hm'] at hm2
                    exact Option.some.inj hm2
                  rw [← this]
                  exact hs'

/-- C93 (partial): with a registered certificate that may sign as owner, and if keys, texts and signatures can be made, there is a request. -/
theorem C93_available_partial (E : Env Key Pub) (pubOf : Key → Option Bytes) (o : Owner Key) (k : Key) (d : Bytes) (v : Int) (n1 n2 n3 : Time)
    (hpub : pubOf k ≠ none) (henc : ∀ c, E.enc c ≠ none) (hsign : ∀ key m, E.sign key m ≠ none) (hroot : ∀ c key, o.roots d = some (c, key) → c.canOwn = true) :
    ∃ r, (generate E pubOf o (some k) d v n1 n2 n3).1 = some r := by
  unfold generate
  dsimp only
  split
  · rename_i hn; exact absurd hn hpub
  · rename_i pk _
    split
    · exact ⟨_, rfl⟩
    · rename_i root hr
      have hc := hroot root.1 root.2 hr
      show ∃ r, signAsOwner E root.1 root.2 (freshRequest v d pk n1 n2 n3) = some r
      unfold signAsOwner
      rw [if_neg (by simp [freshRequest]), if_neg (by simp [hc])]
      split
      · rename_i hn
        unfold computeHashAsSigner at hn
        exact absurd (by simpa using hn) (henc _)
      · split
        · rename_i hn; exact absurd hn (henc _)
        · split
          · rename_i hn; exact absurd hn (hsign _ _)
          · exact ⟨_, rfl⟩

/-- C93 (partial): the CA's certificate for a request has the owner's fields, verifies with the CA's certificate, and its owner signature verifies with the registered certificate. -/
theorem C93_issued_partial (E : Env Key Pub) (hf : E.Faithful) (pubOf : Key → Option Bytes) (ops : List (Op Key)) (fresh : Option Key) (d : Bytes) (v : Int) (n1 n2 n3 : Time) (r : Fields)
    (h : (generate E pubOf (after E pubOf ops) fresh d v n1 n2 n3).1 = some r) (p p' : Pca Key) {pub : Pub} (hk : E.KeyOf p.root p.key pub) (sv : Servers) (o1 o2 : List (Bytes × Log)) (c : Cert) (ev : List Event)
    (hi : signAndLog E p sv o1 o2 r = (.ok c, p', ev)) :
    c.toFields = r ∧ verifyIssuer E p.root c = (true, c) ∧
    ∀ oc ok opub, LastRegistered ops d oc ok → E.KeyOf oc ok opub → (verifyOwner E oc c).1 = true := by
  have hreq := C93_request_partial E hf pubOf ops fresh d v n1 n2 n3 r h
  have hok := C50_success E p sv o1 o2 r c p' ev hi
  have hv := C50_certificate_verifies E hf p hk sv o1 o2 r c p' ev hi
  have hroot : p'.root = p.root := congrArg Prod.fst hok.2.2.2.2
  refine ⟨?_, by rw [← hroot]; exact hv.1, fun oc ok opub hl hko => ?_⟩
  · rw [hok.2.2.1]
    have : r.raw = none := hreq.2.2.2.2.2.1
    cases r
    simp_all
  · rw [hv.2 oc]
    exact (hreq.2.2.2.2.2.2.2 oc ok hl).2.2.2.2 opub hko

theorem generate_rest {E : Env Key Pub} {pubOf : Key → Option Bytes} {o : Owner Key} {fresh : Option Key} {d : Bytes} {v : Int} {n1 n2 n3 : Time} {r : Fields}
    (h : (generate E pubOf o fresh d v n1 n2 n3).1 = some r) :
    r.canOwn = false ∧ r.canIssue = false ∧ r.serial = 0 ∧ r.attributes = ⟨[], [], [], []⟩ ∧ r.notAfter.ns = n2.ns + 1000 := by
  obtain ⟨k, pk, e1, e2, hc⟩ := generate_some h
  rcases hc with ⟨hn, rfl⟩ | ⟨⟨c, ck⟩, hr, hs⟩
  · exact ⟨rfl, rfl, rfl, rfl, rfl⟩
  · obtain ⟨hcan, hh, s, e3⟩ := signAsOwner_fields hs
    subst e3
    exact ⟨rfl, rfl, rfl, rfl, rfl⟩

/-- C93 is violated: the certificate a CA issues for a generated request can never be used to renew. Once registered, with whatever key, every further request for the domain fails. -/
theorem C93_renewal_violated (E : Env Key Pub) (pubOf : Key → Option Bytes) (o : Owner Key) (fresh : Option Key) (d : Bytes) (v : Int) (n1 n2 n3 : Time) (r : Fields)
    (h : (generate E pubOf o fresh d v n1 n2 n3).1 = some r) (p p' : Pca Key) (sv : Servers) (o1 o2 : List (Bytes × Log)) (c : Cert) (ev : List Event)
    (hi : signAndLog E p sv o1 o2 r = (.ok c, p', ev)) (key : Key) (fresh' : Option Key) (v' : Int) (m1 m2 m3 : Time) :
    (generate E pubOf (setRoot (generate E pubOf o fresh d v n1 n2 n3).2 d c key) fresh' d v' m1 m2 m3).1 = none := by
  cases hg : (generate E pubOf (setRoot (generate E pubOf o fresh d v n1 n2 n3).2 d c key) fresh' d v' m1 m2 m3).1 with
  | none => rfl
  | some r' =>
    exfalso
    obtain ⟨k, pk, _, _, hc⟩ := generate_some hg
    have hroot : (setRoot (generate E pubOf o fresh d v n1 n2 n3).2 d c key).roots d = some (c, key) := by simp [setRoot]
    rcases hc with ⟨hn, _⟩ | ⟨root, hr, hs⟩
    · rw [hroot] at hn; cases hn
    · rw [hroot] at hr
      cases hr
      have h1 := (signAsOwner_fields hs).1
      have h2 := (generate_rest h).1
      have h3 : c.canOwn = r.canOwn := by rw [show c.canOwn = c.toFields.canOwn from rfl, (C50_success E p sv o1 o2 r c p' ev hi).2.2.1]
      rw [show (c, key).1 = c from rfl, h3, h2] at h1
      cases h1

/-- C93 is violated: the new private key is lost. Afterwards the owner holds the keys it held before, so none that belongs to the issued certificate, unless the new key pair was one it had already. -/
theorem C93_key_lost_violated (E : Env Key Pub) (pubOf : Key → Option Bytes) (o : Owner Key) (k : Key) (d : Bytes) (v : Int) (n1 n2 n3 : Time) (r : Fields)
    (h : (generate E pubOf o (some k) d v n1 n2 n3).1 = some r) (hnew : ∀ x c key, o.roots x = some (c, key) → pubOf key ≠ pubOf k) :
    ∀ x c key, (generate E pubOf o (some k) d v n1 n2 n3).2.roots x = some (c, key) → pubOf key ≠ r.publicKey := by
  intro x c key hx
  rw [generate_owner] at hx
  obtain ⟨k', pk, e1, e2, hc⟩ := generate_some h
  cases e1
  have : r.publicKey = some pk := by
    rcases hc with ⟨_, rfl⟩ | ⟨root, _, hs⟩
    · rfl
    · obtain ⟨_, hh, s, e3⟩ := signAsOwner_fields hs
      rw [e3]
      rfl
  rw [this, ← e2]
  exact hnew x c key hx

/-- C93 is violated: what the CA issues for a generated request is a certificate without any policy, with serial number 0, that may neither issue nor own, and that is no longer valid a microsecond after the request was made. -/
theorem C93_useless_violated (E : Env Key Pub) (pubOf : Key → Option Bytes) (o : Owner Key) (fresh : Option Key) (d : Bytes) (v : Int) (n1 n2 n3 : Time) (r : Fields)
    (h : (generate E pubOf o fresh d v n1 n2 n3).1 = some r) (p p' : Pca Key) (sv : Servers) (o1 o2 : List (Bytes × Log)) (c : Cert) (ev : List Event)
    (hi : signAndLog E p sv o1 o2 r = (.ok c, p', ev)) :
    c.attributes = ⟨[], [], [], []⟩ ∧ c.serial = 0 ∧ c.canIssue = false ∧ c.canOwn = false ∧ ∀ t : Int, n2.ns + 1000 < t → c.notAfter.ns < t := by
  obtain ⟨a1, a2, a3, a4, a5⟩ := generate_rest h
  have hf := (C50_success E p sv o1 o2 r c p' ev hi).2.2.1
  have e : ∀ {α : Type} (g : Fields → α), g c.toFields = g { r with raw := none } := fun g => congrArg g hf
  exact ⟨(e Fields.attributes).trans a4, (e Fields.serial).trans a3, (e Fields.canIssue).trans a2, (e Fields.canOwn).trans a1, fun t ht => by
    rw [show c.notAfter.ns = r.notAfter.ns from e (fun f => f.notAfter.ns), a5]; exact ht⟩

/-! ## C94 -/

/-- C94: a time stamp made by `SignPolicyCertificateTimestamp` verifies for the certificate it was made for, and says version, log and time. -/
theorem C94_signed_verifies (E : Env Key Pub) (encIn : SptInput → Option Bytes) (pc : Cert) (version : Int) (logId : Option Bytes) (key : Key) (now : Time) (s : Spct)
    (h : signSpct E encIn pc version logId key now = some s) :
    s.version = version ∧ s.logID = logId ∧ s.addedTS = now ∧ s.raw = none ∧
    ∀ pub, (∀ m sig, E.sign key m = some sig → E.verify pub m sig = true) → Verifies E encIn pub pc s := by
  unfold signSpct at h
  split at h
  · cases h
  · rename_i text ht
    split at h
    · cases h
    · rename_i m hm
      split at h
      · cases h
      · rename_i sig hsig
        cases h
        exact ⟨rfl, rfl, rfl, rfl, fun pub hc => ⟨text, m, ht, hm, hc m sig hsig⟩⟩

/-- C94: a time stamp that verifies says what the log signed: if the log's key only accepts messages the log signed, then the log signed for a certificate with the same contents, the same version, log id and time. -/
theorem C94_binding (E : Env Key Pub) (hf : E.Faithful) (encIn : SptInput → Option Bytes) (hfi : FaithfulIn encIn) (pub : Pub) (Signed : Cert → Int → Option Bytes → Time → Prop)
    (hunf : ∀ m sig, E.verify pub m sig = true → ∃ pc v l t, Signed pc v l t ∧ SptMessage E encIn pc v l t m) (pc : Cert) (s : Spct) (h : Verifies E encIn pub pc s) :
    ∃ pc' v l t, Signed pc' v l t ∧ pc'.norm = pc.norm ∧ v = s.version ∧ l.getD [] = s.logID.getD [] ∧ t.ns = s.addedTS.ns := by
  obtain ⟨text, m, ht, hm, hv⟩ := h
  obtain ⟨pc', v, l, t, hs, text', ht', hm'⟩ := hunf m _ hv
  have he := hfi.determines _ _ m hm' hm
  refine ⟨pc', v, l, t, hs, ?_, congrArg SptInput.version he, normBytes_getD (congrArg SptInput.logID he), congrArg (fun i => i.addedTS.ns) he⟩
  have : text' = text := congrArg SptInput.entry he
  subst this
  exact hf.determines _ _ text' ht' ht

/-- The first certificate the CA makes of a request: this is what the logs are asked to time-stamp. -/
def PreCertificate (E : Env Key Pub) (p : Pca Key) (pre : Cert) : Prop := ∃ req, signRequestAsIssuer E p.root p.key req = some pre

/-- C94: with log servers that sign honestly, every time stamp in the issued certificate verifies — for the certificate the log was asked about. -/
theorem C94_issued_partial (E : Env Key Pub) (encIn : SptInput → Option Bytes) (p p' : Pca Key) (sv : Servers) (o1 o2 : List (Bytes × Log)) (req : Fields) (c : Cert) (ev : List Event)
    (hi : signAndLog E p sv o1 o2 req = (.ok c, p', ev)) (pubOf : Bytes → Pub)
    (honest : ∀ i url pc s, sv.obtain i url pc = .spct s → ∃ key v l t, signSpct E encIn pc v l key t = some s ∧ ∀ m sig, E.sign key m = some sig → E.verify (pubOf url) m sig = true) :
    ∃ pre : Cert, PreCertificate E p pre ∧ pre.toFields = c.toFields ∧ c.spcts.length = o1.length ∧
      ∀ (i : Nat) l s, o1[i]? = some l → c.spcts[i]? = some s → Verifies E encIn (pubOf l.2.url) pre s := by
  unfold signAndLog at hi
  split at hi
  · cases hi
  · split at hi
    · cases hi
    · rename_i pc hpc
      obtain ⟨_, s1, m1, _, _, _, e1⟩ := signAsIssuer_shape hpc
      split at hi
      · cases hi
      · cases hi
      · rename_i spcts ev1 hask
        split at hi
        · cases hi
        · rename_i fin hfin
          obtain ⟨_, s2, m2, _, _, _, e2⟩ := signAsIssuer_shape hfin
          split at hi
          · cases hi
          · cases hi
            obtain ⟨a1, a2, _⟩ := askLogs_ok sv pc o1 0 spcts ev1 hask
            have hsp : c.spcts = spcts := by rw [e2]
            refine ⟨pc, ⟨req, hpc⟩, by rw [e2], by rw [hsp, a1], fun i l s hl hs => ?_⟩
            rw [hsp] at hs
            obtain ⟨key, v, lid, t, hsig, hcor⟩ := honest _ _ _ _ (a2 i l s hl hs)
            exact (C94_signed_verifies E encIn pc v lid key t s hsig).2.2.2.2 _ hcor

/-- C94 is violated: no time stamp in an issued certificate verifies for the certificate it is in. The logs sign the first certificate with its issuer signature, which is then replaced; so the check fails for the issued certificate itself and for everything made from it by removing time stamps, issuer signature or other fields. -/
theorem C94_in_certificate_violated (E : Env Key Pub) (hf : E.Faithful) (encIn : SptInput → Option Bytes) (hfi : FaithfulIn encIn) (p p' : Pca Key) (sv : Servers) (o1 o2 : List (Bytes × Log)) (req : Fields) (c : Cert) (ev : List Event)
    (hi : signAndLog E p sv o1 o2 req = (.ok c, p', ev)) (hlogs : o1 ≠ [])
    (hinj : ∀ m m' s, E.sign p.key m = some s → E.sign p.key m' = some s → m = m') (hne : ∀ m, E.sign p.key m ≠ some [])
    (pub : Pub) (hunf : ∀ m sig, E.verify pub m sig = true → ∃ pc v l t, PreCertificate E p pc ∧ SptMessage E encIn pc v l t m)
    (view : Cert) (hview : view.issuerSignature = c.issuerSignature ∨ view.issuerSignature = none) : ∀ s, ¬ Verifies E encIn pub view s := by
  intro s hs
  obtain ⟨pre, v, l, t, ⟨req', hpre⟩, hn, _⟩ := C94_binding E hf encIn hfi pub (fun pc _ _ _ => PreCertificate E p pc) (fun m sig h => by
    obtain ⟨pc, v, l, t, h1, h2⟩ := hunf m sig h
    exact ⟨pc, v, l, t, h1, h2⟩) view s hs
  obtain ⟨_, s1, m1, _, henc1, hsig1, e1⟩ := signAsIssuer_shape hpre
  have hn' : normBytes pre.issuerSignature = normBytes view.issuerSignature := congrArg Cert.issuerSignature hn
  have hg := normBytes_getD hn'
  rw [e1] at hg
  have hg : s1 = view.issuerSignature.getD [] := hg
  unfold signAndLog at hi
  split at hi
  · cases hi
  · split at hi
    · cases hi
    · rename_i pc hpc
      split at hi
      · cases hi
      · cases hi
      · rename_i spcts ev1 hask
        obtain ⟨a1, _, _⟩ := askLogs_ok sv pc o1 0 spcts ev1 hask
        split at hi
        · cases hi
        · rename_i fin hfin
          obtain ⟨_, s2, m2, _, henc2, hsig2, e2⟩ := signAsIssuer_shape hfin
          split at hi
          · cases hi
          · cases hi
            rcases hview with hview | hview
            · rw [hview, e2] at hg
              have hg : s1 = s2 := hg
              subst hg
              have := hinj _ _ _ hsig1 hsig2
              subst this
              have hd := hf.determines _ _ m1 henc1 henc2
              have hl : ([] : List Spct) = spcts.map Spct.norm := congrArg Cert.spcts hd
              have hl := congrArg List.length hl
              rw [List.length_map, a1] at hl
              exact hlogs (List.length_eq_zero_iff.1 hl.symm)
            · rw [hview] at hg
              have hg : s1 = [] := hg
              subst hg
              exact hne _ hsig1

/-- C94 is violated: the CA does not look at the time stamps. Whatever a server answers is put into the certificate, be it unsigned, of another log or for another time. -/
theorem C94_unchecked_violated (E : Env Key Pub) (p : Pca Key) (logs : List (Bytes × Log)) (req : Fields) (hskip : canSkip E p req ≠ none)
    (hroot : computeHashAsSigner E p.root ≠ none) (henc : ∀ c, E.enc c ≠ none) (hsign : ∀ m, E.sign p.key m ≠ none) (junk : Nat → Spct) :
    ∃ c p' ev, signAndLog E p ⟨fun i _ _ => .spct (junk i), fun _ _ _ => true⟩ logs logs req = (.ok c, p', ev) ∧ c.spcts = (List.range logs.length).map junk := by
  obtain ⟨c, hc⟩ := C50_complete E p ⟨fun i _ _ => .spct (junk i), fun _ _ _ => true⟩ logs logs req hskip hroot henc hsign (fun i _ _ => ⟨junk i, rfl⟩) (fun _ _ _ => rfl)
  refine ⟨c, _, _, Prod.ext hc rfl, ?_⟩
  obtain ⟨⟨pre, _, _, ⟨hlen, hans⟩, _⟩, _⟩ := C50_success E p ⟨fun i _ _ => .spct (junk i), fun _ _ _ => true⟩ logs logs req c _ _ (Prod.ext hc rfl)
  refine List.ext_getElem (by simp [hlen]) fun i h1 h2 => ?_
  have h3 : i < logs.length := by rw [← hlen]; exact h1
  have := hans i logs[i] c.spcts[i] (List.getElem?_eq_getElem h3) (List.getElem?_eq_getElem h1)
  simp at this
  simp [this]

/-! ## The hypotheses can be met -/

deriving instance Countable for SptInput

theorem exists_encIn : ∃ f : SptInput → Bytes, Function.Injective f := by
  obtain ⟨f, hf⟩ := exists_injective_nat SptInput
  refine ⟨fun c => List.replicate (f c) 0, fun a b h => hf ?_⟩
  have := congrArg List.length h
  simpa using this

noncomputable def exEncIn : SptInput → Option Bytes := fun i => some (exists_encIn.choose i.norm)

theorem exEncIn_faithful : FaithfulIn exEncIn := by
  constructor
  · intro a b h
    show some _ = some _
    rw [h]
  · intro a b x ha hb
    have ha : some (exists_encIn.choose a.norm) = some x := ha
    have hb : some (exists_encIn.choose b.norm) = some x := hb
    rw [← hb] at ha
    exact exists_encIn.choose_spec (Option.some.inj ha)

def exRoot : Cert := certFromRequest (exFields (asc "example.com") 1)

/-- The owner registered a certificate and asked for an unrelated domain; then it asks for a request. -/
def exOps : List (Op Bytes) := [.register (asc "example.com") exRoot [1, 2, 3], .request (some [7]) (asc "other.org") 1 (exTime 5) (exTime 5) (exTime 5)]

theorem exLast : LastRegistered exOps (asc "example.com") exRoot [1, 2, 3] := ⟨[], [.request (some [7]) (asc "other.org") 1 (exTime 5) (exTime 5) (exTime 5)], rfl, fun _ _ h => by
  cases List.mem_singleton.1 h⟩

example : NeverRegistered exOps (asc "other.org") := by
  intro c k h
  rcases List.mem_cons.1 h with h | h
  · injection h with h1
    exact absurd h1 (by decide +kernel)
  · cases List.mem_singleton.1 h

theorem exGenerate (d : Bytes) : ∃ r, (generate exEnv some (after exEnv some exOps) (some [9, 9]) d 3 (exTime 11) (exTime 12) (exTime 13)).1 = some r := by
  refine C93_available_partial exEnv some _ [9, 9] d 3 _ _ _ (by simp) (fun c => by simp [exEnv]) (fun k m => by simp [exEnv]) fun c key h => ?_
  have := (after_roots exEnv some exOps d c key).1 h
  obtain ⟨b, l, he, _⟩ := this
  have hm : Op.register d c key ∈ exOps := by rw [he]; simp
  rcases List.mem_cons.1 hm with hm | hm
  · cases hm
    rfl
  · cases List.mem_singleton.1 hm

theorem exIssued (r : Fields) (h : canSkip exEnv exPca r ≠ none) : ∃ c, (signAndLog exEnv exPca exServers exLogs exLogs r).1 = .ok c :=
  C50_complete exEnv exPca exServers exLogs exLogs r h (by simp [computeHashAsSigner, exEnv]) (fun c => by simp [exEnv]) (fun m => by simp [exEnv])
    (fun i url c => ⟨_, rfl⟩) (fun _ _ _ => rfl)

/-- A signed request is generated and the CA issues a certificate for it: the hypotheses of the theorems of C93 hold together. -/
example : ∃ r c p' ev, (generate exEnv some (after exEnv some exOps) (some [9, 9]) (asc "example.com") 3 (exTime 11) (exTime 12) (exTime 13)).1 = some r ∧
    signAndLog exEnv exPca exServers exLogs exLogs r = (.ok c, p', ev) ∧ exEnv.KeyOf exRoot [1, 2, 3] [1, 2, 3] ∧ exEnv.KeyOf exPca.root exPca.key [1, 2, 3] := by
  obtain ⟨r, hr⟩ := exGenerate (asc "example.com")
  have hq := (C93_request_partial exEnv exEnv_faithful some exOps _ _ _ _ _ _ r hr).2.2.2.2.2.2.2 exRoot [1, 2, 3] exLast
  have hskip : canSkip exEnv exPca r ≠ none := by
    unfold canSkip
    have hlen : (r.ownerHash.getD []).length = 32 := by
      rw [← hq.2.2.1]
      simp [computeHashAsSigner, exEnv]
    split
    · simp
    · rw [if_neg (by simp [hlen])]
      have hdb : exPca.db (r.ownerHash.getD []) = none := rfl
      rw [hdb]
      simp
  obtain ⟨c, hc⟩ := exIssued r hskip
  exact ⟨r, c, _, _, hr, Prod.ext hc rfl, exEnv_key 1 (asc "example.com"), exEnv_key 1 (asc "com")⟩

example : ∀ x c key, (after exEnv some exOps).roots x = some (c, key) → (some key : Option Bytes) ≠ some [9, 9] := by
  intro x c key h
  obtain ⟨b, l, he, _⟩ := (after_roots exEnv some exOps x c key).1 h
  have hm : Op.register x c key ∈ exOps := by rw [he]; simp
  rcases List.mem_cons.1 hm with hm | hm
  · cases hm
    simp
  · cases List.mem_singleton.1 hm

example : ∃ s, signSpct exEnv exEncIn exRoot 1 (some [4]) [5, 5] (exTime 30) = some s := ⟨_, rfl⟩

open Classical in
/-- A log whose key accepts only what it signed: messages for first certificates of the CA. -/
noncomputable def exLogEnv : Env Bytes Bytes :=
  { exEnv with verify := fun p m s => decide (s = p ++ m ∧ ∃ pc v l t, PreCertificate exEnv exPca pc ∧ SptMessage exEnv exEncIn pc v l t m) }

example : exLogEnv.Faithful ∧ (∀ m m' s, exLogEnv.sign exPca.key m = some s → exLogEnv.sign exPca.key m' = some s → m = m') ∧ (∀ m, exLogEnv.sign exPca.key m ≠ some []) ∧
    (∀ m sig, exLogEnv.verify [5, 5] m sig = true → ∃ pc v l t, PreCertificate exLogEnv exPca pc ∧ SptMessage exLogEnv exEncIn pc v l t m) := by
  refine ⟨⟨exEnv_faithful.shown, exEnv_faithful.determines⟩, ?_, ?_, ?_⟩
  · intro m m' s h h'
    have h : some ([1, 2, 3] ++ m) = some s := h
    have h' : some ([1, 2, 3] ++ m') = some s := h'
    rw [← h'] at h
    exact List.append_cancel_left (Option.some.inj h)
  · intro m h
    have h : some ([1, 2, 3] ++ m) = some [] := h
    cases h
  · intro m sig h
    simp only [exLogEnv, decide_eq_true_eq] at h
    exact h.2

/-- Such a log does accept its own time stamps, of first certificates. -/
example : ∃ pre s, PreCertificate exLogEnv exPca pre ∧ signSpct exLogEnv exEncIn pre 1 (some [4]) [5, 5] (exTime 30) = some s ∧ Verifies exLogEnv exEncIn [5, 5] pre s := by
  obtain ⟨pre, hpre⟩ : ∃ pre, signRequestAsIssuer exEnv exPca.root exPca.key (exFields (asc "a.com") 2) = some pre := ⟨_, rfl⟩
  refine ⟨pre, _, ⟨_, hpre⟩, rfl, _, _, rfl, rfl, ?_⟩
  simp only [verifySignedBytes, exLogEnv, decide_eq_true_eq]
  exact ⟨rfl, pre, 1, some [4], exTime 30, ⟨_, hpre⟩, _, rfl, rfl⟩

end Fpki.Owner
