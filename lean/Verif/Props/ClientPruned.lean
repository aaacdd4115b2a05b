import Verif.Props.Client

/-!
# C178: with pruning, the client gets exactly the certificates that have not expired
-/
namespace Fpki.E2E
open Fpki.Db Fpki.Smt Fpki.Dirty Fpki.Ids Fpki.Domain
open Fpki.Responder (PoA PoP GetProof AnswerFor verifyProofByDomain InSync SyncAt getProof_total exH exH_length)
open Fpki.Chains (X509)
open Fpki.PayloadApi (StoredIn Delivers DeliversSome)
open Fpki.Client (fetchAll Hashes)
open Fpki.Wire (Answer Serves apiGetProof readHttp)

/-! ## Specification -/

/-- The bytes of a certificate submitted for one of the names, or of one in its chain, where none of them was expired at a pruning since. -/
def LiveCertFor (ops : List Op) (names : List Bytes) (p : Bytes) : Prop :=
  ∃ leaf chain, Unexpired ops leaf chain ∧ (∃ n ∈ leaf.names, n ∈ names) ∧ ∃ x ∈ leaf :: chain, x.raw = p

/-! ## Proofs -/

/-- What C132 says about all answers together. -/
theorem shown_live {H : Bytes → Bytes} (hH : ∀ x, (H x).length = 32) {psl : Psl} {ops : List Op} {s : Sys} (hrun : Tidy H (ops ++ [.finish, .reload]) s)
    (hc : Consistent H ops) (hd : Dated H ops) {name : Bytes} {rs : List Responder.Response}
    (h : GetProof H psl s.served (tableOf s.db) name (some rs)) {parts : List Bytes} (hp : parseDomainName psl name = some parts) :
    (∀ i, (∃ r ∈ rs, i ∈ bytesToIDs r.certIDs) ↔ ∃ n ∈ parts, StillBelongs H ops n i) ∧ ∀ i, (∃ r ∈ rs, i ∈ bytesToIDs r.policyIDs) ↔ ∃ n ∈ parts, PolBelongs H ops n i := by
  obtain ⟨h1, h2⟩ := C132_end_to_end_partial H hH psl ops s hrun hc hd name _ h
  rw [hp] at h1
  simp only [Option.map_some, Option.some.injEq] at h1
  have key : ∀ r ∈ rs, (∀ i, i ∈ bytesToIDs r.certIDs ↔ StillBelongs H ops r.domainName i) ∧ ∀ i, i ∈ bytesToIDs r.policyIDs ↔ PolBelongs H ops r.domainName i := by
    intro r hr
    obtain ⟨_, _, _, g1, g2⟩ := h2 rs rfl r hr
    by_cases hpop : r.proofType = PoP
    · obtain ⟨_, ⟨cs, _, c1, c2⟩, ⟨ps, _, p1, p2⟩⟩ := g2 hpop
      have e1 := C14_ids_roundtrip cs (fun x hx => by obtain ⟨_, _, _, _, _, _, rfl⟩ := (c1 x).1 hx; exact hH _)
      have e2 := C14_ids_roundtrip ps (fun x hx => by obtain ⟨_, _, _, rfl⟩ := (p1 x).1 hx; exact hH _)
      unfold idsToBytes at e1 e2
      rw [c2, p2, e1, e2]
      exact ⟨c1, p1⟩
    · have : r.certIDs = [] ∧ r.policyIDs = [] := by
        unfold GetProof at h
        split at h
        · cases h
        · obtain ⟨as', h1, h3⟩ := h
          cases h3
          obtain ⟨part, _, hans⟩ := forall2_mem h1 hr
          unfold AnswerFor at hans
          dsimp only at hans
          split at hans
          · obtain ⟨v, _, rfl⟩ := hans
            exact absurd rfl hpop
          · subst hans
            exact ⟨rfl, rfl⟩
      rw [this.1, this.2, ids_nil]
      rw [g1] at hpop
      exact ⟨fun i => ⟨fun hi => by simp at hi, fun hb => absurd ⟨i, .inl hb⟩ hpop⟩, fun i => ⟨fun hi => by simp at hi, fun hb => absurd ⟨i, .inr hb⟩ hpop⟩⟩
  constructor
  · intro i
    rw [← h1]
    constructor
    · rintro ⟨r, hr, hi⟩
      exact ⟨_, List.mem_map.2 ⟨r, hr, rfl⟩, ((key r hr).1 i).1 hi⟩
    · rintro ⟨n, hn, hi⟩
      obtain ⟨r, hr, rfl⟩ := List.mem_map.1 hn
      exact ⟨r, hr, ((key r hr).1 i).2 hi⟩
  · intro i
    rw [← h1]
    constructor
    · rintro ⟨r, hr, hi⟩
      exact ⟨_, List.mem_map.2 ⟨r, hr, rfl⟩, ((key r hr).2 i).1 hi⟩
    · rintro ⟨n, hn, hi⟩
      obtain ⟨r, hr, rfl⟩ := List.mem_map.1 hn
      exact ⟨r, hr, ((key r hr).2 i).2 hi⟩

/-- What an answer shows is stored. -/
theorem shown_stored {H : Bytes → Bytes} (hH : ∀ x, (H x).length = 32) {psl : Psl} {ops : List Op} {s : Sys} (hrun : SafeHist H ops s) (hserved : s.served = s.tree)
    {name : Bytes} {rs : List Responder.Response} (h : GetProof H psl s.served (tableOf s.db) name (some rs)) (hdirty : s.db.dirty = []) {r : Responder.Response} (hr : r ∈ rs) :
    (∀ i ∈ bytesToIDs r.certIDs, i.length = 32 ∧ ∃ p, StoredIn s.db .certificates i p) ∧ ∀ i ∈ bytesToIDs r.policyIDs, i.length = 32 ∧ ∃ p, StoredIn s.db .policies i p := by
  have hi := safe_sinv hH hrun
  obtain ⟨_, h2⟩ := C91_answers_partial H hH psl ops s hrun hserved name _ h
  obtain ⟨_, _, _, cs, ps, _, _, h6, h7, h8, h9⟩ := h2 rs rfl r hr (by simp [IsDirty, hdirty])
  have hcs : ∀ i ∈ cs, i.length = 32 ∧ ∃ p, StoredIn s.db .certificates i p := by
    intro i hi'
    obtain ⟨c, hc, rfl⟩ := (h6 i).1 hi'
    exact ⟨hi.len.certs c hc.mem, _, c, hc.mem, rfl, rfl⟩
  have hps : ∀ i ∈ ps, i.length = 32 ∧ ∃ p, StoredIn s.db .policies i p := by
    intro i hi'
    obtain ⟨⟨c, hc, rfl⟩, _⟩ := (h7 i).1 hi'
    exact ⟨hi.len.policies c hc, _, c, hc, rfl, rfl⟩
  by_cases hp : r.proofType = PoP
  · obtain ⟨k1, k2, _⟩ := h9 hp
    rw [k1, k2]
    have e1 := C14_ids_roundtrip cs (fun x hx => (hcs x hx).1)
    have e2 := C14_ids_roundtrip ps (fun x hx => (hps x hx).1)
    unfold idsToBytes at e1 e2
    rw [e1, e2]
    exact ⟨hcs, hps⟩
  · have : r.certIDs = [] ∧ r.policyIDs = [] := by
      unfold GetProof at h
      split at h
      · cases h
      · obtain ⟨as', h1, h3⟩ := h
        cases h3
        obtain ⟨part, _, hans⟩ := forall2_mem h1 hr
        unfold AnswerFor at hans
        dsimp only at hans
        split at hans
        · obtain ⟨v, _, rfl⟩ := hans
          exact absurd rfl hp
        · subst hans
          exact ⟨rfl, rfl⟩
    rw [this.1, this.2, ids_nil]
    simp

/-- **C178** (partial: as in C132, and no hash collisions in what was submitted): certificates and policies were submitted and expired certificates pruned, in any order, and the update is finished.
A client asks for a name over HTTP: it reads the answers, one per name from the e2LD to the full name, and all of them verify. It collects the IDs of all answers and asks for their payloads, in
any order: it gets exactly the bytes of the certificates submitted for these names of which neither they nor their chain were expired at a pruning since, with their chains, and exactly the bytes of
the policies submitted for them. -/
theorem C178_client_partial (H : Bytes → Bytes) (hH : ∀ x, (H x).length = 32) (psl : Psl) (hpsl : IsPsl psl) (ops : List Op) (s : Sys) (hrun : Tidy H (ops ++ [.finish, .reload]) s)
    (hc : Consistent H ops) (hd : Dated H ops) (sth : Option Bytes) (name : Bytes) (parts : List Bytes) (hparts : parseDomainName psl name = some parts)
    (hnc : NoCollision H ops parts) (as : List Answer) (h : Serves H psl s.served (tableOf s.db) sth name (some as))
    (qc qp : List Bytes → List (Bytes × Bytes)) (hqc : Delivers s.db .certificates qc) (hqp : Delivers s.db .policies qp) :
    (∃ body, apiGetProof (some as) = .ok body ∧ readHttp body = some as) ∧
    as.map (fun a => (a.entry.map Wire.Entry.name).getD []) = parts ∧
    (∀ a ∈ as, ∃ t : Nat, Wire.verify H (some a) = .ok t true) ∧
    (∀ order, (∀ i, i ∈ order ↔ ∃ a ∈ as, ∃ e, a.entry = some e ∧ i ∈ bytesToIDs (e.certIDs.getD [])) →
      ∃ ps : List Bytes, fetchAll qc order = some (ps.map some) ∧ Hashes H order (ps.map some) ∧ ∀ p, p ∈ ps ↔ LiveCertFor ops parts p) ∧
    (∀ order, (∀ i, i ∈ order ↔ ∃ a ∈ as, ∃ e, a.entry = some e ∧ i ∈ bytesToIDs (e.policyIDs.getD [])) →
      ∃ ps : List Bytes, fetchAll qp order = some (ps.map some) ∧ Hashes H order (ps.map some) ∧ ∀ p, p ∈ ps ↔ PolicyFor ops parts p) := by
  have hc' : Consistent H (ops ++ [.finish, .reload]) :=
    ⟨fun l c l' c' hl hl' => hc.certs l c l' c' (sub_more.1 hl) (sub_more.1 hl'), fun p p' hp hp' => hc.policies p p' (polSub_more.1 hp) (polSub_more.1 hp')⟩
  have hd' : Dated H (ops ++ [.finish, .reload]) := fun l c l' c' hl hl' => hd l c l' c' (sub_more.1 hl) (sub_more.1 hl')
  have hsafe := (tidy_holds hH hrun hc' hd').1
  have hi := safe_sinv hH hsafe
  obtain ⟨hserved, hdirty⟩ := tidy_end hrun
  obtain ⟨g1, g2⟩ := C134_genuine H _ s hsafe.run
  obtain ⟨hist, hgood, htree⟩ := hi.tree
  have hsync : InSync H (run 256 hist) (tableOf s.db) := by
    intro id hid
    have := hi.sync id hid (by simp [IsDirty, hdirty])
    rw [htree] at this
    exact this
  rw [hserved] at h
  have h' := h
  rw [htree] at h'
  obtain ⟨w1, _, w2, w3⟩ := Wire.C103_accepted_partial H hH psl hpsl hist hgood (tableOf s.db) hsync sth name as h'
  rw [hparts, Option.some.injEq] at w2
  obtain ⟨rs, hg, hf, _⟩ := h
  rw [← hserved] at hg
  obtain ⟨s1, s2⟩ := shown_live hH hrun hc hd hg hparts
  have hsub : ∀ l c, Unexpired ops l c → Submitted ops l c := fun l c h => (unexpired_iff.1 h).sub
  refine ⟨w1, w2, fun a ha => by obtain ⟨_, t, _, ht⟩ := w3 a ha; exact ⟨t, ht⟩, ?_, ?_⟩
  · intro order ho
    have ho' : ∀ i, i ∈ order ↔ ∃ n ∈ parts, StillBelongs H ops n i := fun i => by rw [ho, (forall2_entries hf i).1, s1]
    have hst : ∀ i ∈ order, ∃ p, StoredIn s.db .certificates i p := by
      intro i hio
      obtain ⟨r, hr, k⟩ := (forall2_entries hf i).1.1 ((ho i).1 hio)
      exact ((shown_stored hH hsafe hserved hg hdirty hr).1 i k).2
    have hgen : ∀ i p, StoredIn s.db .certificates i p → H p = i ∧ ∃ leaf chain, Submitted ops leaf chain ∧ ∃ x ∈ leaf :: chain, x.raw = p := by
      rintro i p ⟨c, hcc, rfl, rfl⟩
      obtain ⟨k1, l, ch, k2, k3⟩ := g1 c hcc
      exact ⟨k1, l, ch, sub_more.1 k2, k3⟩
    obtain ⟨ps, f1, f2, f3⟩ := fetch_stored (H := H) hqc (stored_unique hi.inv.keys (.inl rfl)) (fun i p hp => (hgen i p hp).1)
      (fun i hio => by obtain ⟨n, _, leaf, chain, k1, _, x, k2, rfl⟩ := (ho' i).1 hio; exact hH _) hst
    refine ⟨ps, f1, fun i => by rw [← f2]; simp, fun p => ?_⟩
    rw [f3]
    constructor
    · rintro ⟨i, hio, hp⟩
      obtain ⟨m, hm, leaf, chain, k1, ⟨n, k2, k3⟩, x, k4, rfl⟩ := (ho' i).1 hio
      obtain ⟨e1, leaf', chain', e2, x', e3, rfl⟩ := hgen _ _ hp
      exact ⟨leaf, chain, k1, ⟨n, k2, by rw [hnc.owners leaf chain (hsub _ _ k1) n k2 m hm k3]; exact hm⟩, x, k4, hnc.raws _ _ _ _ (hsub _ _ k1) e2 x k4 x' e3 e1.symm⟩
    · rintro ⟨leaf, chain, k1, ⟨n, k2, k3⟩, x, k4, rfl⟩
      have hio := (ho' (H x.raw)).2 ⟨n, k3, leaf, chain, k1, ⟨n, k2, rfl⟩, x, k4, rfl⟩
      obtain ⟨p, hp⟩ := hst _ hio
      obtain ⟨e1, leaf', chain', e2, x', e3, rfl⟩ := hgen _ _ hp
      refine ⟨_, hio, ?_⟩
      rw [hnc.raws _ _ _ _ (hsub _ _ k1) e2 x k4 x' e3 e1.symm]
      rw [hnc.raws _ _ _ _ (hsub _ _ k1) e2 x k4 x' e3 e1.symm] at hp
      exact hp
  · intro order ho
    have ho' : ∀ i, i ∈ order ↔ ∃ n ∈ parts, PolBelongs H ops n i := fun i => by rw [ho, (forall2_entries hf i).2, s2]
    have hst : ∀ i ∈ order, ∃ p, StoredIn s.db .policies i p := by
      intro i hio
      obtain ⟨r, hr, k⟩ := (forall2_entries hf i).2.1 ((ho i).1 hio)
      exact ((shown_stored hH hsafe hserved hg hdirty hr).2 i k).2
    have hgen : ∀ i p, StoredIn s.db .policies i p → H p = i ∧ ∃ subject, PolSubmitted ops (subject, p) := by
      rintro i p ⟨c, hcc, rfl, rfl⟩
      obtain ⟨k1, sub, k2⟩ := g2 c hcc
      exact ⟨k1, sub, polSub_more.1 k2⟩
    obtain ⟨ps, f1, f2, f3⟩ := fetch_stored (H := H) hqp (stored_unique hi.inv.keys (.inr rfl)) (fun i p hp => (hgen i p hp).1)
      (fun i hio => by obtain ⟨n, _, p, k1, _, rfl⟩ := (ho' i).1 hio; exact hH _) hst
    refine ⟨ps, f1, fun i => by rw [← f2]; simp, fun p => ?_⟩
    rw [f3]
    constructor
    · rintro ⟨i, hio, hp⟩
      obtain ⟨m, hm, q, k1, k2, rfl⟩ := (ho' i).1 hio
      obtain ⟨e1, subject, e2⟩ := hgen _ _ hp
      have e3 := hnc.payloads _ _ k1 e2 e1.symm
      dsimp only at e3
      refine ⟨m, hm, ?_⟩
      rw [← hnc.subjects q k1 m hm k2, ← e3]
      exact k1
    · rintro ⟨n, k1, k2⟩
      have hio := (ho' (H p)).2 ⟨n, k1, (n, p), k2, rfl, rfl⟩
      obtain ⟨q, hq⟩ := hst _ hio
      obtain ⟨e1, subject, e2⟩ := hgen _ _ hq
      refine ⟨_, hio, ?_⟩
      have e3 := hnc.payloads _ _ e2 k2 e1
      dsimp only at e3
      rw [e3] at hq
      exact hq

/-! ## The hypotheses can be met -/

/-- One of two certificates has expired and is pruned; then a client asks for the other name. -/
example : (∃ s as, Tidy exH (exTidy ++ [.finish, .reload]) s ∧ Serves exH exPsl s.served (tableOf s.db) none (asc "a.com") (some as)) ∧ Consistent exH exTidy ∧ Dated exH exTidy ∧
    parseDomainName exPsl (asc "a.com") = some [asc "a.com"] ∧ NoCollision exH exTidy [asc "a.com"] ∧ LiveCertFor exTidy [asc "a.com"] [7] ∧
    CertFor exTidy [asc "h.com"] [8] ∧ ¬ LiveCertFor exTidy [asc "h.com"] [8] := by
  obtain ⟨⟨s, hs⟩, c1, c2, _, hno⟩ := tidy_example
  have hsub : ∀ l c, Submitted exTidy l c ↔ (l = exCert 7 "a.com" 90 ∨ l = exCert 8 "h.com" 40) ∧ c = [] := by
    intro l c
    constructor
    · rintro ⟨ls, cs, k, h1, h2⟩
      simp only [exTidy, List.mem_cons, List.not_mem_nil, or_false, Op.certs.injEq, reduceCtorEq] at h1
      obtain ⟨rfl, rfl, rfl⟩ := h1
      simp only [List.zip_cons_cons, List.zip_nil_right, List.mem_cons, List.not_mem_nil, or_false, Prod.mk.injEq] at h2
      rcases h2 with ⟨rfl, rfl⟩ | ⟨rfl, rfl⟩ <;> simp
    · rintro ⟨h, rfl⟩
      refine ⟨_, _, _, List.mem_cons_self, ?_⟩
      rcases h with rfl | rfl <;> simp
  have hpol : ∀ p, ¬ PolSubmitted exTidy p := by
    rintro p ⟨_, _, _, h, _⟩
    simp [exTidy] at h
  have hp : parseDomainName exPsl (asc "a.com") = some [asc "a.com"] := by decide +kernel
  obtain ⟨as, has⟩ := serves_total exH exH_length exPsl s.served (tableOf s.db) none (asc "a.com") _ hp
  have e78 : exH [7] ≠ exH [8] := by decide +kernel
  have eah : exH (asc "a.com") ≠ exH (asc "h.com") := by decide +kernel
  refine ⟨⟨s, as, hs, has⟩, c1, c2, hp, ⟨?_, fun p _ h => absurd h (hpol p), ?_, fun p h => absurd h (hpol p)⟩, ?_, ?_, ?_⟩
  · intro l c l' c' h h' x hx x' hx' he
    obtain ⟨h1, rfl⟩ := (hsub l c).1 h
    obtain ⟨h2, rfl⟩ := (hsub l' c').1 h'
    rw [List.mem_singleton] at hx hx'
    subst hx hx'
    rcases h1 with rfl | rfl <;> rcases h2 with rfl | rfl
    · rfl
    · exact absurd he e78
    · exact absurd he.symm e78
    · rfl
  · intro l c h n hn m hm he
    obtain ⟨h1, rfl⟩ := (hsub l c).1 h
    rw [List.mem_singleton] at hm
    subst hm
    rcases h1 with rfl | rfl
    · exact List.mem_singleton.1 hn
    · rw [show n = asc "h.com" from List.mem_singleton.1 hn] at he
      exact absurd he.symm eah
  · refine ⟨exCert 7 "a.com" 90, [], ⟨[], _, _, 4, [.coalesce 12, .coalesce 13, .finish, .prune 50, .coalesce 13], rfl, by simp, ?_⟩, ⟨_, List.mem_singleton.2 rfl, List.mem_singleton.2 rfl⟩, _, List.mem_singleton.2 rfl, rfl⟩
    intro cut hcut c hc
    simp only [List.mem_cons, reduceCtorEq, Op.prune.injEq, List.not_mem_nil, or_false, false_or] at hcut hc
    subst hcut hc
    decide
  · exact ⟨_, _, (hsub _ _).2 ⟨.inr rfl, rfl⟩, ⟨_, List.mem_singleton.2 rfl, List.mem_singleton.2 rfl⟩, _, List.mem_singleton.2 rfl, rfl⟩
  · rintro ⟨leaf, chain, h1, ⟨n, h2, h3⟩, x, h4, _⟩
    exact hno ⟨_, leaf, chain, h1, ⟨n, h2, by rw [List.mem_singleton.1 h3]⟩, x, h4, rfl⟩

end Fpki.E2E
