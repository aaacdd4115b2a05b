import Verif.Lemmas.EndToEndRun

/-!
# C91: from the submitted certificates and policies to the verified answers
-/
namespace Fpki.E2E
open Fpki.Db Fpki.Smt Fpki.Dirty Fpki.Responder Fpki.Ids Fpki.Domain
open Fpki.Chains (X509)

/-- C91 (partial: safe steps, see `Safe`): whatever was submitted, pruned, interrupted, coalesced and updated, in any order, as long as the responder has loaded the current tree, `GetProof`
gives one answer per name from the e2LD to the full name, and the answer for a name that is not dirty verifies; it says "present" exactly if the name has a stored certificate or policy, and
then returns exactly the IDs of its certificates, of all their stored ancestors, and of its policies. -/
theorem C91_answers_partial (H : Bytes → Bytes) (hH : ∀ x, (H x).length = 32) (psl : Psl) (ops : List Op) (s : Sys) (hrun : SafeHist H ops s) (hserved : s.served = s.tree)
    (name : Bytes) (out : Option (List Response)) (h : GetProof H psl s.served (tableOf s.db) name out) :
    out.map (List.map Response.domainName) = parseDomainName psl name ∧
    ∀ as, out = some as → ∀ a ∈ as, ¬ IsDirty s.db (H a.domainName) →
      a.domainID = H a.domainName ∧ a.root = rootHash H 256 s.tree ∧ verifyProofByDomain H a = some (a.proofType, true) ∧
      ∃ cs ps : List Bytes, Ascending cs ∧ Ascending ps ∧
        (∀ i, i ∈ cs ↔ ∃ c, InClosure s.db.certs s.db.domainCerts (H a.domainName) c ∧ c.id = i) ∧
        (∀ i, i ∈ ps ↔ (∃ c ∈ s.db.policies, c.id = i) ∧ (H a.domainName, i) ∈ s.db.domainPolicies) ∧
        (a.proofType = PoP ↔ cs ++ ps ≠ []) ∧
        (a.proofType = PoP → a.certIDs = cs.flatten ∧ a.policyIDs = ps.flatten ∧ ClientChecks H a.domainName a) :=
  answers_of_sinv hH psl (safe_sinv hH hrun) hserved name out h

/-- C91 (partial: without pruning; interruptions at any statement are allowed): the same, with no condition on the steps. -/
theorem C91_answers_insert_only_partial (H : Bytes → Bytes) (hH : ∀ x, (H x).length = 32) (psl : Psl) (ops : List Op) (s : Sys) (hrun : Run H ops s)
    (hops : ∀ op ∈ ops, op.NoPrune) (hserved : s.served = s.tree)
    (name : Bytes) (out : Option (List Response)) (h : GetProof H psl s.served (tableOf s.db) name out) :
    out.map (List.map Response.domainName) = parseDomainName psl name ∧
    ∀ as, out = some as → ∀ a ∈ as, ¬ IsDirty s.db (H a.domainName) →
      a.domainID = H a.domainName ∧ a.root = rootHash H 256 s.tree ∧ verifyProofByDomain H a = some (a.proofType, true) ∧
      ∃ cs ps : List Bytes, Ascending cs ∧ Ascending ps ∧
        (∀ i, i ∈ cs ↔ ∃ c, InClosure s.db.certs s.db.domainCerts (H a.domainName) c ∧ c.id = i) ∧
        (∀ i, i ∈ ps ↔ (∃ c ∈ s.db.policies, c.id = i) ∧ (H a.domainName, i) ∈ s.db.domainPolicies) ∧
        (a.proofType = PoP ↔ cs ++ ps ≠ []) ∧
        (a.proofType = PoP → a.certIDs = cs.flatten ∧ a.policyIDs = ps.flatten ∧ ClientChecks H a.domainName a) :=
  C91_answers_partial H hH psl ops s (noPrune_safe hH hrun hops).1 hserved name out h

/-! ## Specification: what belongs to a name -/

/-- A certificate was submitted with its chain. -/
def Submitted (ops : List Op) (leaf : X509) (chain : List X509) : Prop :=
  ∃ leaves chains k, Op.certs leaves chains k ∈ ops ∧ (leaf, chain) ∈ leaves.zip chains

/-- A policy was submitted: subject and payload. -/
def PolSubmitted (ops : List Op) (p : Bytes × Bytes) : Prop := ∃ keep ps k, Op.policies keep ps k ∈ ops ∧ p ∈ ps

/-- The ID of a certificate, or of one in the chain of a certificate, submitted for the name. -/
def Belongs (H : Bytes → Bytes) (ops : List Op) (name i : Bytes) : Prop :=
  ∃ leaf chain, Submitted ops leaf chain ∧ (∃ n ∈ leaf.names, H n = H name) ∧ ∃ c ∈ leaf :: chain, i = H c.raw

/-- The ID of a policy submitted for the name. -/
def PolBelongs (H : Bytes → Bytes) (ops : List Op) (name i : Bytes) : Prop :=
  ∃ p, PolSubmitted ops p ∧ H p.1 = H name ∧ i = H p.2

/-- Submissions agree: whenever the same certificate is submitted again, it has the same issuer, and counts for the same names (those of the certificate as a leaf, none as a part of a
chain); a policy has one subject. -/
structure Consistent (H : Bytes → Bytes) (ops : List Op) : Prop where
  certs : ∀ leaf chain leaf' chain', Submitted ops leaf chain → Submitted ops leaf' chain' → ∀ (j j' : Nat) (c c' : X509),
    (leaf :: chain)[j]? = some c → (leaf' :: chain')[j']? = some c' → H c.raw = H c'.raw →
      ((leaf :: chain)[j + 1]?.map (fun x => H x.raw)) = ((leaf' :: chain')[j' + 1]?.map (fun x => H x.raw)) ∧
      ∀ n, n ∈ (if j = 0 then leaf.names else []) ↔ n ∈ (if j' = 0 then leaf'.names else [])
  policies : ∀ p p', PolSubmitted ops p → PolSubmitted ops p' → H p.2 = H p'.2 → H p.1 = H p'.1

/-- The operation is not interrupted. -/
def Op.Complete : Op → Prop
  | .certs _ _ k | .policies _ _ k => 4 ≤ k
  | _ => True

/-! ## The tables hold what was submitted -/

theorem mem_pathRows {H : Bytes → Bytes} : ∀ (ds : List X509) (c : X509) (ns : Option (List Bytes)) (r : Chains.Row), r ∈ Chains.pathRows H ns c ds ↔
    ∃ (j : Nat) (x : X509), (c :: ds)[j]? = some x ∧ r = (x, H x.raw, ((c :: ds)[j + 1]?).map (fun x => H x.raw), if j = 0 then ns else none)
  | [], c, ns, r => by
    simp only [Chains.pathRows, List.mem_singleton]
    constructor
    · rintro rfl
      exact ⟨0, c, rfl, rfl⟩
    · rintro ⟨j, x, h1, h2⟩
      cases j with
      | zero => cases h1; exact h2
      | succ j => cases h1
  | d :: ds, c, ns, r => by
    simp only [Chains.pathRows, List.mem_cons]
    rw [mem_pathRows ds d none r]
    constructor
    · rintro (rfl | ⟨j, x, h1, h2⟩)
      · exact ⟨0, c, rfl, rfl⟩
      · refine ⟨j + 1, x, h1, ?_⟩
        rw [h2]
        have : (if j = 0 then none else none : Option (List Bytes)) = none := by split <;> rfl
        rw [this]
        rfl
    · rintro ⟨j, x, h1, h2⟩
      cases j with
      | zero => cases h1; exact Or.inl h2
      | succ j =>
        refine Or.inr ⟨j, x, h1, ?_⟩
        rw [h2]
        have : (if j = 0 then none else none : Option (List Bytes)) = none := by split <;> rfl
        rw [this]
        rfl

/-- A row of the submitted paths. -/
def SubRow (H : Bytes → Bytes) (ops : List Op) (r : Chains.Row) : Prop := ∃ leaves chains k, Op.certs leaves chains k ∈ ops ∧ PathRow H leaves chains r

theorem subRow_iff {H : Bytes → Bytes} {ops : List Op} {r : Chains.Row} : SubRow H ops r ↔ ∃ leaf chain, Submitted ops leaf chain ∧
    ∃ (j : Nat) (x : X509), (leaf :: chain)[j]? = some x ∧ r = (x, H x.raw, ((leaf :: chain)[j + 1]?).map (fun x => H x.raw), if j = 0 then some leaf.names else none) := by
  constructor
  · rintro ⟨leaves, chains, k, h1, p, h2, h3⟩
    exact ⟨p.1, p.2, ⟨leaves, chains, k, h1, h2⟩, (mem_pathRows _ _ _ _).1 h3⟩
  · rintro ⟨leaf, chain, ⟨leaves, chains, k, h1, h2⟩, h3⟩
    exact ⟨leaves, chains, k, h1, (leaf, chain), h2, (mem_pathRows _ _ _ _).2 h3⟩

theorem names_getD (leaf : X509) (j : Nat) : (if j = 0 then some leaf.names else none : Option (List Bytes)).getD [] = if j = 0 then leaf.names else [] := by
  split <;> rfl

theorem Consistent.rows {H : Bytes → Bytes} {ops : List Op} (h : Consistent H ops) {r r' : Chains.Row} (hr : SubRow H ops r) (hr' : SubRow H ops r') (he : r.2.1 = r'.2.1) :
    r.2.2.1 = r'.2.2.1 ∧ ∀ n, n ∈ r.2.2.2.getD [] ↔ n ∈ r'.2.2.2.getD [] := by
  obtain ⟨leaf, chain, h1, j, x, h2, rfl⟩ := subRow_iff.1 hr
  obtain ⟨leaf', chain', h1', j', x', h2', rfl⟩ := subRow_iff.1 hr'
  obtain ⟨h3, h4⟩ := h.certs leaf chain leaf' chain' h1 h1' j j' x x' h2 h2' he
  refine ⟨h3, fun n => ?_⟩
  have := h4 n
  rw [← names_getD, ← names_getD] at this
  exact this

theorem Consistent.mono {H : Bytes → Bytes} {ops ops' : List Op} (h : Consistent H ops') (hs : ∀ o ∈ ops, o ∈ ops') : Consistent H ops := by
  have h1 : ∀ l c, Submitted ops l c → Submitted ops' l c := fun l c ⟨a, b, k, h2, h3⟩ => ⟨a, b, k, hs _ h2, h3⟩
  have h2 : ∀ p, PolSubmitted ops p → PolSubmitted ops' p := fun p ⟨a, b, k, h2, h3⟩ => ⟨a, b, k, hs _ h2, h3⟩
  exact ⟨fun l c l' c' hl hl' => h.certs l c l' c' (h1 _ _ hl) (h1 _ _ hl'), fun p p' hp hp' => h.policies p p' (h2 _ hp) (h2 _ hp')⟩

/-- The tables hold exactly what was submitted. -/
structure Holds (H : Bytes → Bytes) (ops : List Op) (db : DB) : Prop where
  stored : ∀ r, SubRow H ops r → Stored db r.2.1
  certs : ∀ c ∈ db.certs, ∃ r, SubRow H ops r ∧ r.2.1 = c.id ∧ c.parent = r.2.2.1.getD []
  links : ∀ d i, (d, i) ∈ db.domainCerts ↔ ∃ r, SubRow H ops r ∧ r.2.1 = i ∧ ∃ n ∈ r.2.2.2.getD [], H n = d
  pols : ∀ i, (∃ c ∈ db.policies, c.id = i) ↔ ∃ p, PolSubmitted ops p ∧ H p.2 = i
  polLinks : ∀ d i, (d, i) ∈ db.domainPolicies ↔ ∃ p, PolSubmitted ops p ∧ H p.1 = d ∧ H p.2 = i

theorem subRow_append {H : Bytes → Bytes} {ops : List Op} {op : Op} {r : Chains.Row} : SubRow H (ops ++ [op]) r ↔ SubRow H ops r ∨ SubRow H [op] r := by
  unfold SubRow
  simp only [List.mem_append]
  constructor
  · rintro ⟨l, c, k, h | h, hr⟩
    · exact Or.inl ⟨l, c, k, h, hr⟩
    · exact Or.inr ⟨l, c, k, h, hr⟩
  · rintro (⟨l, c, k, h, hr⟩ | ⟨l, c, k, h, hr⟩)
    · exact ⟨l, c, k, Or.inl h, hr⟩
    · exact ⟨l, c, k, Or.inr h, hr⟩

theorem polSub_append {ops : List Op} {op : Op} {p : Bytes × Bytes} : PolSubmitted (ops ++ [op]) p ↔ PolSubmitted ops p ∨ PolSubmitted [op] p := by
  unfold PolSubmitted
  simp only [List.mem_append]
  constructor
  · rintro ⟨l, c, k, h | h, hr⟩
    · exact Or.inl ⟨l, c, k, h, hr⟩
    · exact Or.inr ⟨l, c, k, h, hr⟩
  · rintro (⟨l, c, k, h, hr⟩ | ⟨l, c, k, h, hr⟩)
    · exact ⟨l, c, k, Or.inl h, hr⟩
    · exact ⟨l, c, k, Or.inr h, hr⟩

theorem subRow_certs {H : Bytes → Bytes} {leaves : List X509} {chains : List (List X509)} {k : Nat} {r : Chains.Row} :
    SubRow H [.certs leaves chains k] r ↔ PathRow H leaves chains r := by
  constructor
  · rintro ⟨l, c, k, h, hr⟩
    cases List.mem_singleton.1 h
    exact hr
  · intro h
    exact ⟨leaves, chains, k, List.mem_singleton.2 rfl, h⟩

theorem polSub_policies {keep : Option Nat} {ps : List (Bytes × Bytes)} {k : Nat} {p : Bytes × Bytes} : PolSubmitted [.policies keep ps k] p ↔ p ∈ ps := by
  constructor
  · rintro ⟨l, c, k, h, hr⟩
    cases List.mem_singleton.1 h
    exact hr
  · intro h
    exact ⟨keep, ps, k, List.mem_singleton.2 rfl, h⟩

/-- The step submits nothing and changes neither certificates nor policies nor links. -/
theorem Holds.same {H : Bytes → Bytes} {ops : List Op} {op : Op} {db db' : DB} (h : Holds H ops db) (h1 : ∀ l c k, op ≠ .certs l c k) (h2 : ∀ l c k, op ≠ .policies l c k)
    (e1 : db'.certs = db.certs) (e2 : db'.domainCerts = db.domainCerts) (e3 : db'.policies = db.policies) (e4 : db'.domainPolicies = db.domainPolicies) :
    Holds H (ops ++ [op]) db' := by
  have hr : ∀ r, SubRow H (ops ++ [op]) r ↔ SubRow H ops r := by
    intro r
    rw [subRow_append, or_iff_left]
    rintro ⟨l, c, k, h, _⟩
    exact h1 l c k (List.mem_singleton.1 h).symm
  have hp : ∀ p, PolSubmitted (ops ++ [op]) p ↔ PolSubmitted ops p := by
    intro r
    rw [polSub_append, or_iff_left]
    rintro ⟨l, c, k, h, _⟩
    exact h2 l c k (List.mem_singleton.1 h).symm
  constructor
  · intro r h3
    unfold Stored
    rw [e1]
    exact h.stored r ((hr r).1 h3)
  · intro c hc
    rw [e1] at hc
    obtain ⟨r, h3, h4⟩ := h.certs c hc
    exact ⟨r, (hr r).2 h3, h4⟩
  · intro d i
    simp only [e2, hr]
    exact h.links d i
  · intro i
    simp only [e3, hp]
    exact h.pols i
  · intro d i
    simp only [e4, hp]
    exact h.polLinks d i

theorem step_holds {H : Bytes → Bytes} {ops : List Op} {op : Op} {s s' : Sys} (hk : Keys s.db) (h : Holds H ops s.db) (hc : Consistent H (ops ++ [op])) (hn : op.NoPrune) (hcm : op.Complete)
    (hst : Step H s op s') : Holds H (ops ++ [op]) s'.db := by
  cases hst with
  | certs leaves chains k st hl hst =>
    have hd := certs_done hl hst k
    have hk4 : 4 ≤ k := hcm
    show Holds H _ (runSteps (st.take k) s.db)
    generalize runSteps (st.take k) s.db = db' at hd
    have hp : ∀ p, PolSubmitted (ops ++ [.certs leaves chains k]) p ↔ PolSubmitted ops p := by
      intro r
      rw [polSub_append, or_iff_left]
      rintro ⟨l, c, k, h, _⟩
      cases List.mem_singleton.1 h
    constructor
    · intro r hr
      rcases subRow_append.1 hr with h1 | h1
      · obtain ⟨c, h2, h3⟩ := h.stored r h1
        exact ⟨c, hd.keepCerts c h2, h3⟩
      · exact hd.stored (by omega) r (subRow_certs.1 h1)
    · intro c hc
      rcases hd.newCerts c hc with h1 | ⟨_, r, h1, h2, h3⟩
      · obtain ⟨r, h2, h3⟩ := h.certs c h1
        exact ⟨r, subRow_append.2 (Or.inl h2), h3⟩
      · exact ⟨r, subRow_append.2 (Or.inr (subRow_certs.2 h1)), h2, h3⟩
    · intro d i
      constructor
      · intro hdi
        rcases hd.newLinks d i hdi with h1 | ⟨_, r, n, h1, h2, h3, h4⟩
        · obtain ⟨r, h2, h3⟩ := (h.links d i).1 h1
          exact ⟨r, subRow_append.2 (Or.inl h2), h3⟩
        · exact ⟨r, subRow_append.2 (Or.inr (subRow_certs.2 h1)), h2, n, h3, h4⟩
      · rintro ⟨r, hr, rfl, n, h2, rfl⟩
        rcases subRow_append.1 hr with h1 | h1
        · exact hd.keepLinks _ ((h.links _ _).2 ⟨r, h1, rfl, n, h2, rfl⟩)
        · by_cases hs : Stored s.db r.2.1
          · obtain ⟨c, h3, h4⟩ := hs
            obtain ⟨r', h5, h6, _⟩ := h.certs c h3
            have h7 := (hc.rows hr (subRow_append.2 (Or.inl h5)) (by rw [h6, h4])).2 n
            exact hd.keepLinks _ ((h.links _ _).2 ⟨r', h5, by rw [h6, h4], n, h7.1 h2, rfl⟩)
          · exact hd.linked hk4 r n (subRow_certs.1 h1) h2 hs
    · intro i
      rw [hd.policies]
      simp only [hp]
      exact h.pols i
    · intro d i
      rw [hd.domainPolicies]
      simp only [hp]
      exact h.polLinks d i
  | policies keep ps k st hst =>
    have hd := policies_done hst k
    have hk4 : 4 ≤ k := hcm
    show Holds H _ (runSteps (st.take k) s.db)
    generalize runSteps (st.take k) s.db = db' at hd
    have hr : ∀ r, SubRow H (ops ++ [.policies keep ps k]) r ↔ SubRow H ops r := by
      intro r
      rw [subRow_append, or_iff_left]
      rintro ⟨l, c, k, h, _⟩
      cases List.mem_singleton.1 h
    have hall : ∀ p ∈ ps, (H p.1, H p.2) ∈ db'.domainPolicies := by
      intro p hp
      rcases hd.linked hk4 p hp with h1 | h1
      · exact h1
      · obtain ⟨p', h2, h3⟩ := (h.pols _).1 h1
        have := hc.policies p p' (polSub_append.2 (Or.inr (polSub_policies.2 hp))) (polSub_append.2 (Or.inl h2)) h3.symm
        exact hd.keepLinks _ ((h.polLinks _ _).2 ⟨p', h2, this.symm, h3⟩)
    constructor
    · intro r h3
      unfold Stored
      rw [hd.certs]
      exact h.stored r ((hr r).1 h3)
    · intro c hc
      rw [hd.certs] at hc
      obtain ⟨r, h3, h4⟩ := h.certs c hc
      exact ⟨r, (hr r).2 h3, h4⟩
    · intro d i
      simp only [hd.domainCerts, hr]
      exact h.links d i
    · intro i
      constructor
      · rintro ⟨c, h1, rfl⟩
        rcases hd.newPolicies c h1 with h1 | ⟨p, h1, h2⟩
        · obtain ⟨p, h2, h3⟩ := (h.pols _).1 ⟨c, h1, rfl⟩
          exact ⟨p, polSub_append.2 (Or.inl h2), h3⟩
        · exact ⟨p, polSub_append.2 (Or.inr (polSub_policies.2 h1)), h2⟩
      · rintro ⟨p, h1, rfl⟩
        rcases polSub_append.1 h1 with h1 | h1
        · exact hd.keepPolicies _ ((h.pols _).2 ⟨p, h1, rfl⟩)
        · exact hd.stored hk4 p (polSub_policies.1 h1)
    · intro d i
      constructor
      · intro h1
        rcases hd.newLinks d i h1 with h1 | ⟨p, h1, h2⟩
        · obtain ⟨p, h2, h3⟩ := (h.polLinks d i).1 h1
          exact ⟨p, polSub_append.2 (Or.inl h2), h3⟩
        · exact ⟨p, polSub_append.2 (Or.inr (polSub_policies.2 h1)), h2⟩
      · rintro ⟨p, h1, rfl, rfl⟩
        rcases polSub_append.1 h1 with h1 | h1
        · exact hd.keepLinks _ ((h.polLinks _ _).2 ⟨p, h1, rfl, rfl⟩)
        · exact hall p (polSub_policies.1 h1)
  | prune cut fuel db' hp => exact absurd hn (by simp [Op.NoPrune])
  | pruneCut cut fuel db' hp => exact absurd hn (by simp [Op.NoPrune])
  | coalesce p fuel chunk n db' h1 h2 h3 hcd =>
    obtain ⟨db1, k, h4, h5, _⟩ := calc_step hk (Progress.refl s.db) fuel p chunk h1 h2 h3
    rw [hcd] at h4
    cases h4
    exact h.same (by intros; simp) (by intros; simp) h5.certs h5.domainCerts h5.policies h5.domainPolicies
  | smt max t' hmax hw hu => exact h.same (by intros; simp) (by intros; simp) rfl rfl rfl rfl
  | finish max t' hmax hw hu => exact h.same (by intros; simp) (by intros; simp) rfl rfl rfl rfl
  | reload => exact h.same (by intros; simp) (by intros; simp) rfl rfl rfl rfl

theorem run_holds {H : Bytes → Bytes} (hH : ∀ x, (H x).length = 32) {ops : List Op} {s : Sys} (h : Run H ops s) (hn : ∀ op ∈ ops, op.NoPrune) (hcm : ∀ op ∈ ops, op.Complete)
    (hc : Consistent H ops) : Holds H ops s.db := by
  induction h with
  | nil =>
    have h1 : ∀ r, ¬ SubRow H [] r := by rintro r ⟨_, _, _, h, _⟩; cases h
    have h2 : ∀ p, ¬ PolSubmitted [] p := by rintro r ⟨_, _, _, h, _⟩; cases h
    exact ⟨fun r h => absurd h (h1 r), by simp [start], by simp [start, h1], by simp [start, h2], by simp [start, h2]⟩
  | snoc ops s s' op hr hst ih =>
    have hn' : ∀ o ∈ ops, o.NoPrune := fun o ho => hn o (List.mem_append_left _ ho)
    have h1 := ih hn' (fun o ho => hcm o (List.mem_append_left _ ho)) (hc.mono (fun o ho => List.mem_append_left _ ho))
    have h2 := safe_sinv hH (noPrune_safe hH hr hn').1
    exact step_holds h2.inv.keys h1 hc (hn op (by simp)) (hcm op (by simp)) hst

/-- The certificates of a name in the tables are those submitted for it. -/
theorem closure_belongs {H : Bytes → Bytes} (hH : ∀ x, (H x).length = 32) {ops : List Op} {db : DB} (h : Holds H ops db) (hc : Consistent H ops) (name i : Bytes) :
    (∃ c, InClosure db.certs db.domainCerts (H name) c ∧ c.id = i) ↔ Belongs H ops name i := by
  constructor
  · rintro ⟨c, hcl, rfl⟩
    have : ∃ leaf chain, Submitted ops leaf chain ∧ (∃ n ∈ leaf.names, H n = H name) ∧ ∃ (j : Nat) (x : X509), (leaf :: chain)[j]? = some x ∧ c.id = H x.raw := by
      induction hcl with
      | link c hm hl =>
        obtain ⟨r, h1, h2, n, h3, h4⟩ := (h.links _ _).1 hl
        obtain ⟨leaf, chain, h5, j, x, h6, rfl⟩ := subRow_iff.1 h1
        dsimp only at h2 h3
        rw [names_getD] at h3
        split at h3
        · exact ⟨leaf, chain, h5, ⟨n, h3, h4⟩, j, x, h6, h2.symm⟩
        · cases h3
      | parent c p _ hp he ih =>
        obtain ⟨leaf, chain, h5, h6, j, x, h7, h8⟩ := ih
        rename_i hcl
        obtain ⟨r, g1, g2, g3⟩ := h.certs c hcl.mem
        have hsr : SubRow H ops (x, H x.raw, ((leaf :: chain)[j + 1]?).map (fun x => H x.raw), if j = 0 then some leaf.names else none) :=
          subRow_iff.2 ⟨leaf, chain, h5, j, x, h7, rfl⟩
        have h9 := (hc.rows g1 hsr (by rw [g2, h8])).1
        dsimp only at h9
        rw [h9] at g3
        cases hx : (leaf :: chain)[j + 1]? with
        | none =>
          rw [hx] at g3
          obtain ⟨r', k1, k2, _⟩ := h.certs p hp
          obtain ⟨leaf', chain', _, j', x', _, rfl⟩ := subRow_iff.1 k1
          have h32 := hH x'.raw
          dsimp only at k2
          rw [k2, he, g3] at h32
          cases h32
        | some y =>
          rw [hx] at g3
          exact ⟨leaf, chain, h5, h6, j + 1, y, hx, by rw [he, g3]; rfl⟩
    obtain ⟨leaf, chain, h1, h2, j, x, h3, h4⟩ := this
    exact ⟨leaf, chain, h1, h2, x, List.mem_of_getElem? h3, h4⟩
  · rintro ⟨leaf, chain, h1, ⟨n, h2, h2'⟩, x, h3, rfl⟩
    obtain ⟨j, hj⟩ := List.getElem?_of_mem h3
    have hrow : ∀ (j : Nat) (x : X509), (leaf :: chain)[j]? = some x → SubRow H ops (x, H x.raw, ((leaf :: chain)[j + 1]?).map (fun x => H x.raw), if j = 0 then some leaf.names else none) :=
      fun j x hx => subRow_iff.2 ⟨leaf, chain, h1, j, x, hx, rfl⟩
    clear h3
    induction j generalizing x with
    | zero =>
      obtain ⟨c, k1, k2⟩ := h.stored _ (hrow 0 x hj)
      refine ⟨c, .link c k1 ?_, k2⟩
      rw [k2]
      exact (h.links _ _).2 ⟨_, hrow 0 x hj, rfl, n, h2, h2'⟩
    | succ j ih =>
      have hlt : j < (leaf :: chain).length := by
        have := (List.getElem?_eq_some_iff.1 hj).1
        omega
      obtain ⟨c, k1, k2⟩ := ih _ (List.getElem?_eq_getElem hlt)
      obtain ⟨p, k3, k4⟩ := h.stored _ (hrow (j + 1) x hj)
      refine ⟨p, .parent c p k1 k3 ?_, k4⟩
      obtain ⟨r, g1, g2, g3⟩ := h.certs c k1.mem
      have h9 := (hc.rows g1 (hrow j _ (List.getElem?_eq_getElem hlt)) (by rw [g2, k2])).1
      dsimp only at h9
      rw [h9, hj] at g3
      rw [g3, k4]
      rfl

theorem belongs_append {H : Bytes → Bytes} {ops more : List Op} (h : ∀ op ∈ more, op = .finish ∨ op = .reload) (name i : Bytes) :
    (Belongs H (ops ++ more) name i ↔ Belongs H ops name i) ∧ (PolBelongs H (ops ++ more) name i ↔ PolBelongs H ops name i) := by
  have h1 : ∀ l c, Submitted (ops ++ more) l c ↔ Submitted ops l c := by
    intro l c
    constructor
    · rintro ⟨a, b, k, h2, h3⟩
      rcases List.mem_append.1 h2 with h2 | h2
      · exact ⟨a, b, k, h2, h3⟩
      · rcases h _ h2 with h | h <;> cases h
    · rintro ⟨a, b, k, h2, h3⟩
      exact ⟨a, b, k, List.mem_append_left _ h2, h3⟩
  have h2 : ∀ p, PolSubmitted (ops ++ more) p ↔ PolSubmitted ops p := by
    intro p
    constructor
    · rintro ⟨a, b, k, h2, h3⟩
      rcases List.mem_append.1 h2 with h2 | h2
      · exact ⟨a, b, k, h2, h3⟩
      · rcases h _ h2 with h | h <;> cases h
    · rintro ⟨a, b, k, h2, h3⟩
      exact ⟨a, b, k, List.mem_append_left _ h2, h3⟩
  constructor
  · simp only [Belongs, h1]
  · simp only [PolBelongs, h2]

/-- C91 (partial: without pruning, with insertions that are not interrupted and agree with each other): certificates and policies are submitted, coalesced and put into the tree in any order;
when the update is finished and the responder has loaded the tree, `GetProof` gives one answer per name from the e2LD to the full name. Each verifies; it says "present" exactly if
something was submitted for the name, and then returns exactly the IDs of the certificates submitted for the name with their chains, and of the policies submitted for it,
each once and in ascending order. -/
theorem C91_end_to_end_partial (H : Bytes → Bytes) (hH : ∀ x, (H x).length = 32) (psl : Psl) (ops : List Op) (s : Sys) (hrun : Run H (ops ++ [.finish, .reload]) s)
    (hn : ∀ op ∈ ops, op.NoPrune) (hcm : ∀ op ∈ ops, op.Complete) (hc : Consistent H ops)
    (name : Bytes) (out : Option (List Response)) (h : GetProof H psl s.served (tableOf s.db) name out) :
    out.map (List.map Response.domainName) = parseDomainName psl name ∧
    ∀ as, out = some as → ∀ a ∈ as,
      a.domainID = H a.domainName ∧ a.root = rootHash H 256 s.tree ∧ verifyProofByDomain H a = some (a.proofType, true) ∧
      (a.proofType = PoP ↔ ∃ i, Belongs H ops a.domainName i ∨ PolBelongs H ops a.domainName i) ∧
      (a.proofType = PoP → ClientChecks H a.domainName a ∧
        (∃ cs, Ascending cs ∧ (∀ i, i ∈ cs ↔ Belongs H ops a.domainName i) ∧ a.certIDs = cs.flatten) ∧
        (∃ ps, Ascending ps ∧ (∀ i, i ∈ ps ↔ PolBelongs H ops a.domainName i) ∧ a.policyIDs = ps.flatten)) := by
  have hmore : ∀ op ∈ [Op.finish, Op.reload], op = .finish ∨ op = .reload := by simp
  have hn' : ∀ op ∈ ops ++ [.finish, .reload], op.NoPrune := by
    intro op ho
    rcases List.mem_append.1 ho with h | h
    · exact hn op h
    · rcases hmore op h with rfl | rfl <;> exact True.intro
  have hcm' : ∀ op ∈ ops ++ [.finish, .reload], op.Complete := by
    intro op ho
    rcases List.mem_append.1 ho with h | h
    · exact hcm op h
    · rcases hmore op h with rfl | rfl <;> exact True.intro
  have hc' : Consistent H (ops ++ [.finish, .reload]) := by
    have h1 : ∀ l c, Submitted (ops ++ [.finish, .reload]) l c → Submitted ops l c := by
      rintro l c ⟨a, b, k, h2, h3⟩
      rcases List.mem_append.1 h2 with h2 | h2
      · exact ⟨a, b, k, h2, h3⟩
      · rcases hmore _ h2 with h | h <;> cases h
    have h2 : ∀ p, PolSubmitted (ops ++ [.finish, .reload]) p → PolSubmitted ops p := by
      rintro p ⟨a, b, k, h2, h3⟩
      rcases List.mem_append.1 h2 with h2 | h2
      · exact ⟨a, b, k, h2, h3⟩
      · rcases hmore _ h2 with h | h <;> cases h
    exact ⟨fun l c l' c' hl hl' => hc.certs l c l' c' (h1 _ _ hl) (h1 _ _ hl'), fun p p' hp hp' => hc.policies p p' (h2 _ hp) (h2 _ hp')⟩
  have hh := run_holds hH hrun hn' hcm' hc'
  have hsafe := (noPrune_safe hH hrun hn').1
  have hend : s.served = s.tree ∧ s.db.dirty = [] := by
    have e : ops ++ [Op.finish, Op.reload] = (ops ++ [.finish]) ++ [.reload] := by simp
    rw [e] at hrun
    generalize hl : (ops ++ [Op.finish]) ++ [.reload] = l at hrun
    cases hrun with
    | nil => simp at hl
    | snoc l1 s1 _ op1 hr1 hst1 =>
      obtain ⟨h1, h2⟩ := List.append_inj' hl rfl
      cases h2
      subst h1
      cases hst1
      generalize hl : ops ++ [Op.finish] = l at hr1
      cases hr1 with
      | nil => simp at hl
      | snoc l2 s2 _ op2 hr2 hst2 =>
        obtain ⟨h1, h2⟩ := List.append_inj' hl rfl
        cases h2
        cases hst2
        exact ⟨rfl, rfl⟩
  obtain ⟨h1, h2⟩ := C91_answers_partial H hH psl _ s hsafe hend.1 name out h
  refine ⟨h1, fun as has a ha => ?_⟩
  have hnd : ¬ IsDirty s.db (H a.domainName) := by
    unfold IsDirty
    rw [hend.2]
    simp
  obtain ⟨g1, g2, g3, cs, ps, g4, g5, g6, g7, g8, g9⟩ := h2 as has a ha hnd
  have hb := fun i => (belongs_append (H := H) (ops := ops) hmore a.domainName i).1
  have hpb := fun i => (belongs_append (H := H) (ops := ops) hmore a.domainName i).2
  have hcs : ∀ i, i ∈ cs ↔ Belongs H ops a.domainName i := fun i => by rw [g6, closure_belongs hH hh hc', hb]
  have hps : ∀ i, i ∈ ps ↔ PolBelongs H ops a.domainName i := by
    intro i
    rw [g7, ← hpb]
    constructor
    · rintro ⟨_, h⟩
      obtain ⟨p, k1, k2, k3⟩ := (hh.polLinks _ _).1 h
      exact ⟨p, k1, k2, k3.symm⟩
    · rintro ⟨p, k1, k2, rfl⟩
      exact ⟨(hh.pols _).2 ⟨p, k1, rfl⟩, (hh.polLinks _ _).2 ⟨p, k1, k2, rfl⟩⟩
  refine ⟨g1, g2, g3, ?_, ?_⟩
  · rw [g8]
    constructor
    · intro hne
      obtain ⟨i, hi⟩ := List.exists_mem_of_ne_nil _ hne
      rw [List.mem_append, hcs, hps] at hi
      exact ⟨i, hi⟩
    · rintro ⟨i, hi⟩
      rw [← hcs, ← hps, ← List.mem_append] at hi
      exact List.ne_nil_of_mem hi
  · intro hp
    obtain ⟨k1, k2, k3⟩ := g9 hp
    exact ⟨k3, ⟨cs, g4, hcs, k1⟩, ⟨ps, g5, hps, k2⟩⟩

/-! ## Updates can be finished -/

theorem query_exists (db : DB) : ∃ q, PayloadQuery db q := by
  have : ∀ id, ∃ o : Option Bytes, (db.payloads.find? (fun r => r.domain == id) = none ∧ o = none) ∨
      (db.payloads.find? (fun r => r.domain == id) ≠ none ∧ ∃ v, SortIDsAndGlue (tableOf db id).ids v ∧ o = some v) := by
    intro id
    by_cases h : db.payloads.find? (fun r => r.domain == id) = none
    · exact ⟨none, Or.inl ⟨h, rfl⟩⟩
    · obtain ⟨v, hv⟩ := C14_glue_total (tableOf db id).ids
      exact ⟨some v, Or.inr ⟨h, v, hv, rfl⟩⟩
  exact ⟨fun id => (this id).choose, fun id => (this id).choose_spec⟩

theorem bundles_exists (H : Bytes → Bytes) (n : Nat) : ∀ (bs : List (List Entry)) (t : Node), ∃ t', SmtFromBundles H n t bs t'
  | [], t => ⟨t, .nil t⟩
  | b :: bs, t => by
    obtain ⟨kvs, hk⟩ := goSorted_exists_key (b.map (toKV H))
    obtain ⟨t', h⟩ := bundles_exists H n bs (updateRoot n t kvs)
    exact ⟨t', .cons t t' b bs kvs hk h⟩

theorem updateSMT_exists (H : Bytes → Bytes) {db : DB} (hk : KeyUnique Prod.fst db.dirty) (t : Node) {max : Nat} (hmax : 0 < max) : ∃ o, UpdateSMT H max db t o := by
  by_cases h0 : db.dirty = []
  · exact ⟨_, .clean h0⟩
  · obtain ⟨q, hq⟩ := query_exists db
    obtain ⟨bs, hb⟩ := collect_exists hk hmax (Nat.lt_succ_self (db.dirty.length + 32)) (Nat.lt_succ_self db.dirty.length)
    obtain ⟨t', ht⟩ := bundles_exists H 256 (bs.map (entriesPreserveMissing q)) t
    exact ⟨_, .run q _ _ bs t' h0 hq (Nat.lt_succ_self _) (Nat.lt_succ_self _) hb ht⟩

theorem step_dirty_link {H : Bytes → Bytes} {op : Op} {s s' : Sys} (hk : Keys s.db) (h : ∀ d, IsDirty s.db d → HasLink s.db d) (hn : op.NoPrune) (hcm : op.Complete)
    (hst : Step H s op s') : ∀ d, IsDirty s'.db d → HasLink s'.db d := by
  cases hst with
  | certs leaves chains k st hl hst =>
    have hd := certs_done hl hst k
    show ∀ d, IsDirty (runSteps (st.take k) s.db) d → HasLink (runSteps (st.take k) s.db) d
    generalize runSteps (st.take k) s.db = db' at hd
    intro d hdd
    rcases hd.dirty hcm d hdd with h1 | h1
    · rcases h d h1 with ⟨i, h2⟩ | ⟨i, h2⟩
      · exact Or.inl ⟨i, hd.keepLinks _ h2⟩
      · exact Or.inr ⟨i, by rw [hd.domainPolicies]; exact h2⟩
    · exact Or.inl h1
  | policies keep ps k st hst =>
    have hd := policies_done hst k
    show ∀ d, IsDirty (runSteps (st.take k) s.db) d → HasLink (runSteps (st.take k) s.db) d
    generalize runSteps (st.take k) s.db = db' at hd
    intro d hdd
    rcases hd.dirty hcm d hdd with h1 | h1
    · rcases h d h1 with ⟨i, h2⟩ | ⟨i, h2⟩
      · exact Or.inl ⟨i, by rw [hd.domainCerts]; exact h2⟩
      · exact Or.inr ⟨i, hd.keepLinks _ h2⟩
    · exact Or.inr h1
  | prune cut fuel db' hp => exact absurd hn (by simp [Op.NoPrune])
  | pruneCut cut fuel db' hp => exact absurd hn (by simp [Op.NoPrune])
  | coalesce p fuel chunk n db' h1 h2 h3 hcd =>
    obtain ⟨db1, k, h4, h5, _⟩ := calc_step hk (Progress.refl s.db) fuel p chunk h1 h2 h3
    rw [hcd] at h4
    cases h4
    intro d hd
    have h6 : IsDirty s.db d := by
      unfold IsDirty
      rw [← h5.dirtyKeys]
      exact hd
    have := h d h6
    unfold HasLink at this ⊢
    show (∃ i, (d, i) ∈ db'.domainCerts) ∨ ∃ i, (d, i) ∈ db'.domainPolicies
    rw [h5.domainCerts, h5.domainPolicies]
    exact this
  | smt max t' hmax hw hu => exact h
  | finish max t' hmax hw hu => intro d hd; simp [IsDirty, cleanupDirty] at hd
  | reload => exact h

theorem run_dirty_link {H : Bytes → Bytes} (hH : ∀ x, (H x).length = 32) {ops : List Op} {s : Sys} (h : Run H ops s) (hn : ∀ op ∈ ops, op.NoPrune)
    (hcm : ∀ op ∈ ops, op.Complete) : ∀ d, IsDirty s.db d → HasLink s.db d := by
  induction h with
  | nil => intro d hd; simp [IsDirty, start] at hd
  | snoc ops s s' op hr hst ih =>
    have hn' : ∀ o ∈ ops, o.NoPrune := fun o ho => hn o (List.mem_append_left _ ho)
    have h1 := ih hn' (fun o ho => hcm o (List.mem_append_left _ ho))
    exact step_dirty_link (safe_sinv hH (noPrune_safe hH hr hn').1).inv.keys h1 (hn op (by simp)) (hcm op (by simp)) hst

/-- C91 (partial: without pruning and interruptions): UpdateSMT does not panic: whenever no domain waits to be coalesced, it has an outcome, and every outcome is a tree. -/
theorem C91_no_panic_partial (H : Bytes → Bytes) (hH : ∀ x, (H x).length = 32) (ops : List Op) (s : Sys) (hrun : Run H ops s) (hn : ∀ op ∈ ops, op.NoPrune)
    (hcm : ∀ op ∈ ops, op.Complete) (hw : ∀ d, (d, false) ∉ s.db.dirty) (max : Nat) (hmax : 0 < max) :
    (∃ o, UpdateSMT H max s.db s.tree o) ∧ ∀ o, UpdateSMT H max s.db s.tree o → ∃ t', o = some t' := by
  obtain ⟨h1, h2⟩ := noPrune_safe hH hrun hn
  have hi := safe_sinv hH h1
  refine ⟨updateSMT_exists H hi.inv.keys.dirty s.tree hmax, ?_⟩
  intro o ho
  cases ho with
  | clean _ => exact ⟨_, rfl⟩
  | run q fuel n bundles t' hne hq hf hnn hc hr =>
    have hs := smt_safe hi h2 hw max fuel n q bundles t' hmax hq hf hnn hc hr
    obtain ⟨_, h3⟩ := smt_sync hi hmax hq hf hnn hc hs
    obtain ⟨r, hr'⟩ := List.exists_mem_of_ne_nil _ hne
    have hl := run_dirty_link hH hrun hn hcm r.1 (isDirty_iff.2 ⟨r, hr', rfl⟩)
    have h4 := (sync_hasLink hi h2 hw h3 r.1 (hi.len.dirty r hr')).2 hl
    have h5 : t' ≠ .empty := by
      rintro rfl
      exact h4 rfl
    rw [if_neg h5]
    exact ⟨t', rfl⟩

theorem Run.more {H : Bytes → Bytes} {ops : List Op} {s s' : Sys} {op : Op} (h : Run H ops s) (hs : Step H s op s') : Run H (ops ++ [op]) s' := .snoc ops s s' op h hs

theorem coalesce_all {H : Bytes → Bytes} (hH : ∀ x, (H x).length = 32) : ∀ (n : Nat) (ops : List Op) (s : Sys), waitingCount s.db ≤ n → Run H ops s → (∀ op ∈ ops, op.NoPrune) →
    ∃ (ps : List Nat) (s' : Sys), Run H (ops ++ ps.map .coalesce) s' ∧ ∀ d, (d, false) ∉ s'.db.dirty := by
  intro n
  induction n with
  | zero =>
    intro ops s h hr _
    refine ⟨[], s, by simpa using hr, fun d hd => ?_⟩
    have : 0 < waitingCount s.db := List.countP_pos_iff.2 ⟨_, hd, rfl⟩
    omega
  | succ n ih =>
    intro ops s h hr hn
    by_cases hall : ∀ d, (d, false) ∉ s.db.dirty
    · exact ⟨[], s, by simpa using hr, hall⟩
    · simp only [not_forall, not_not] at hall
      obtain ⟨d, hd⟩ := hall
      have hi := safe_sinv hH (noPrune_safe hH hr hn).1
      let fuel := s.db.certs.length + s.db.policies.length + 1
      obtain ⟨db', k, h1, h2, h3, h4, h5⟩ := calc_step hi.inv.keys (Progress.refl s.db) fuel (shardOf d) 1 (by omega) (by omega) (by omega)
      have hk : k ≠ 0 := by
        intro h0
        obtain ⟨e, h6⟩ := h4 h0
        rw [e] at h6
        exact h6 d rfl hd
      have hst : Step H s (.coalesce (shardOf d)) { s with db := db' } := .coalesce (shardOf d) fuel 1 k db' (by omega) (by omega) (by omega) h1
      have h6 := h5 hk
      obtain ⟨ps, s', h7, h8⟩ := ih (ops ++ [.coalesce (shardOf d)]) { s with db := db' } (by show waitingCount db' ≤ n; omega) (hr.more hst) (by
        intro op ho
        rcases List.mem_append.1 ho with h | h
        · exact hn op h
        · cases List.mem_singleton.1 h; exact True.intro)
      exact ⟨shardOf d :: ps, s', by simpa using h7, h8⟩

/-- C91 (partial: without pruning and interruptions): after any submissions an update can be finished: coalescing, UpdateSMT, the cleanup and the reloading of the tree all have an outcome. -/
theorem C91_update_completes_partial (H : Bytes → Bytes) (hH : ∀ x, (H x).length = 32) (ops : List Op) (s : Sys) (hrun : Run H ops s) (hn : ∀ op ∈ ops, op.NoPrune)
    (hcm : ∀ op ∈ ops, op.Complete) : ∃ (ps : List Nat) (s' : Sys), Run H (ops ++ ps.map .coalesce ++ [.finish, .reload]) s' := by
  obtain ⟨ps, s1, h1, h2⟩ := coalesce_all hH _ ops s (Nat.le_refl _) hrun hn
  have hn1 : ∀ op ∈ ops ++ ps.map .coalesce, op.NoPrune := by
    intro op ho
    rcases List.mem_append.1 ho with h | h
    · exact hn op h
    · obtain ⟨p, _, rfl⟩ := List.mem_map.1 h; exact True.intro
  have hc1 : ∀ op ∈ ops ++ ps.map .coalesce, op.Complete := by
    intro op ho
    rcases List.mem_append.1 ho with h | h
    · exact hcm op h
    · obtain ⟨p, _, rfl⟩ := List.mem_map.1 h; exact True.intro
  obtain ⟨⟨o, h3⟩, h4⟩ := C91_no_panic_partial H hH _ s1 h1 hn1 hc1 h2 1 (by omega)
  obtain ⟨t', rfl⟩ := h4 o h3
  have h5 := (h1.more (.finish 1 t' (by omega) h2 h3)).more .reload
  exact ⟨ps, _, by simpa using h5⟩

/-! ## The panic -/

theorem safe_single {H : Bytes → Bytes} {n : Nat} {t t' : Node} {ebs : List (List Entry)} (h : SmtFromBundles H n t ebs t') : ebs.flatten.length ≤ 1 → SafeRun H n t ebs t' := by
  induction h with
  | nil t => intro _; exact .nil t
  | cons t t' b bs kvs hk hr ih =>
    intro hl
    rw [List.flatten_cons, List.length_append] at hl
    have h1 : kvs.length ≤ 1 := by
      have := hk.perm.length_eq
      rw [List.length_map] at this
      omega
    refine .cons t t' b bs kvs hk (EdgeDeletes.not_mid ?_ 0 t) (ih (by omega))
    intro d hd _
    left
    intro p hp
    match kvs, h1, hd, hp with
    | [x], _, hd, hp =>
      rw [List.mem_singleton.1 hd, List.mem_singleton.1 hp]
      exact bytesLt_irrefl _

/-- C91 (partial: safe steps): UpdateSMT panics exactly if something is dirty but no name has a certificate or policy left (or any yet). -/
theorem C91_panic_iff_partial (H : Bytes → Bytes) (hH : ∀ x, (H x).length = 32) (ops : List Op) (s : Sys) (hrun : SafeHist H ops s) (hs : Safe H s .smt)
    (hw : ∀ d, (d, false) ∉ s.db.dirty) (max : Nat) (hmax : 0 < max) (o : Option Node) (ho : UpdateSMT H max s.db s.tree o) :
    o = none ↔ s.db.dirty ≠ [] ∧ ∀ d : Bytes, d.length = 32 → (¬ ∃ c, InClosure s.db.certs s.db.domainCerts d c) ∧ ¬ ∃ i, (d, i) ∈ s.db.domainPolicies := by
  have hi := safe_sinv hH hrun
  cases ho with
  | clean h0 => simp [h0]
  | run q fuel n bundles t' hne hq hf hnn hc hr =>
    obtain ⟨⟨hist, hg, rfl⟩, h3⟩ := smt_sync hi hmax hq hf hnn hc (hs max fuel n q bundles t' hmax hq hf hnn hc hr)
    have hempty : ∀ d, (tableOf s.db d).ids = [] ↔ (¬ ∃ c, InClosure s.db.certs s.db.domainCerts d c) ∧ ¬ ∃ i, (d, i) ∈ s.db.domainPolicies := by
      intro d
      obtain ⟨cs, ps, _, _, c3, c4, _, c6⟩ := table_columns hi (hw d)
      rw [c6, List.append_eq_nil_iff]
      refine and_congr ?_ ?_
      · constructor
        · rintro rfl ⟨c, hc⟩
          have := (c3 c.id).2 ⟨c, hc, rfl⟩
          cases this
        · intro h
          cases cs with
          | nil => rfl
          | cons i cs =>
            obtain ⟨c, hc, _⟩ := (c3 i).1 List.mem_cons_self
            exact absurd ⟨c, hc⟩ h
      · constructor
        · rintro rfl ⟨i, hl⟩
          have := (c4 i).2 ((closure_nil_parent hi.inv.pol i).2 ⟨hi.inv.plinks d i hl, hl⟩)
          cases this
        · intro h
          cases ps with
          | nil => rfl
          | cons i ps => exact absurd ⟨i, ((closure_nil_parent hi.inv.pol i).1 ((c4 i).1 List.mem_cons_self)).2⟩ h
    constructor
    · intro h
      refine ⟨hne, fun d hd => (hempty d).1 ?_⟩
      have ht : run 256 hist = .empty := by
        split at h
        · assumption
        · cases h
      have := h3 d hd
      unfold SyncAt at this
      rw [ht] at this
      split at this
      · assumption
      · obtain ⟨v, _, h5⟩ := this
        cases h5
    · rintro ⟨_, h⟩
      have ht : run 256 hist = .empty := by
        by_contra hx
        obtain ⟨k, h4, h5⟩ := hg.spec.1.has_key hx
        have hk : k.length = 32 := by have := inPre_zero.1 h4; omega
        have := h3 k hk
        unfold SyncAt at this
        rw [if_pos ((hempty k).2 (h k hk))] at this
        exact h5 this
      rw [if_pos ht]

/-- A certificate for one name. -/
def exLeaf : X509 := ⟨[7], [[1]], 90⟩

/-- After the second statement of the first insertion: the certificate is stored, its name is dirty, but there is no link. -/
def cutDB : DB := ⟨[⟨exH [7], [], 90, [7]⟩], [], [], [], [], [], [(exH [1], false)]⟩

/-- A step for certificates, from its result. -/
theorem step_certs {H : Bytes → Bytes} {s : Sys} {leaves : List X509} {chains : List (List X509)} {k : Nat} {db' : DB} (hl : leaves.length = chains.length)
    (h : (certSteps H s.db leaves chains).map (fun st => runSteps (st.take k) s.db) = some db') : Step H s (.certs leaves chains k) { s with db := db' } := by
  cases hc : certSteps H s.db leaves chains with
  | none => rw [hc] at h; cases h
  | some st =>
    rw [hc] at h
    cases h
    exact .certs leaves chains k st hl hc

theorem step_policies {H : Bytes → Bytes} {s : Sys} {keep : Option Nat} {ps : List (Bytes × Bytes)} {k : Nat} {db' : DB}
    (h : (policySteps H s.db keep ps).map (fun st => runSteps (st.take k) s.db) = some db') : Step H s (.policies keep ps k) { s with db := db' } := by
  cases hc : policySteps H s.db keep ps with
  | none => rw [hc] at h; cases h
  | some st =>
    rw [hc] at h
    cases h
    exact .policies keep ps k st hc

theorem mem_one {d : Bytes} {x : Bytes × Bool} {b : Bool} (h : (d, b) ∈ [x]) : x.2 = b := by
  rw [← List.mem_singleton.1 h]

/-- C91 does not hold in general: if the very first insertion stops after two of its statements, the name is dirty without a certificate. From then on UpdateSMT panics, and so no
update is finished, although the certificate is submitted again. -/
theorem C91_interrupted_violated : ∃ s, Run exH [.certs [exLeaf] [[]] 2, .certs [exLeaf] [[]] 4, .coalesce 0] s ∧ (∀ d, (d, false) ∉ s.db.dirty) ∧
    (∀ max, 0 < max → (∃ o, UpdateSMT exH max s.db s.tree o) ∧ ∀ o, UpdateSMT exH max s.db s.tree o → o = none) ∧
    (∀ s', ¬ Step exH s .finish s') ∧ ∃ st, certSteps exH s.db [exLeaf] [[]] = some st ∧ ∀ k, runSteps (st.take k) s.db = s.db := by
  let s1 : Sys := ⟨cutDB, .empty, .empty⟩
  let s2 : Sys := ⟨{ cutDB with dirty := [(exH [1], true)] }, .empty, .empty⟩
  have r1 : Run exH [.certs [exLeaf] [[]] 2] s1 := Run.nil.more (step_certs rfl (by decide +kernel))
  have r2 : Run exH [.certs [exLeaf] [[]] 2, .certs [exLeaf] [[]] 4] s1 := r1.more (step_certs rfl (by decide +kernel))
  have hc : calcDirtyDomains 5 cutDB 0 10 = some (s2.db, 1) := by decide +kernel
  have r3 : Run exH [.certs [exLeaf] [[]] 2, .certs [exLeaf] [[]] 4, .coalesce 0] s2 :=
    r2.more (.coalesce 0 5 10 1 s2.db (by decide +kernel) (by decide +kernel) (by omega) hc)
  have hn : ∀ op ∈ [Op.certs [exLeaf] [[]] 2, .certs [exLeaf] [[]] 4, .coalesce 0], op.NoPrune := by simp [Op.NoPrune]
  obtain ⟨hsafe, hx⟩ := noPrune_safe exH_length r3 hn
  have hi := safe_sinv exH_length hsafe
  have hw : ∀ d, (d, false) ∉ s2.db.dirty := fun d hd => by
    have := mem_one hd
    cases this
  have hall : ∀ max, 0 < max → ∀ o, UpdateSMT exH max s2.db s2.tree o → o = none := by
    intro max hmax o ho
    refine (C91_panic_iff_partial exH exH_length _ s2 hsafe (smt_safe hi hx hw) hw max hmax o ho).2 ⟨by simp [s2], fun d _ => ⟨?_, by simp [s2, cutDB]⟩⟩
    rintro ⟨c, hcl⟩
    induction hcl with
    | link c _ hl => simp [s2, cutDB] at hl
    | parent _ _ _ _ _ ih => exact ih
  refine ⟨s2, r3, hw, fun max hmax => ⟨updateSMT_exists exH hi.inv.keys.dirty _ hmax, hall max hmax⟩, ?_, ?_⟩
  · intro s' h
    cases h with
    | finish max t' hmax _ hu => cases hall max hmax _ hu
  · have : (certSteps exH s2.db [exLeaf] [[]]).map List.length = some 0 := by decide +kernel
    cases hc : certSteps exH s2.db [exLeaf] [[]] with
    | none => rw [hc] at this; cases this
    | some st =>
      rw [hc] at this
      have : st = [] := List.length_eq_zero_iff.1 (Option.some.inj this)
      subst this
      exact ⟨[], rfl, fun k => by simp [runSteps]⟩

/-- C91 does not hold in general: when the last certificate expires and is pruned, UpdateSMT panics. The old tree, where the certificate is present, stays. -/
theorem C91_prune_all_violated : ∃ s, Run exH [.certs [exLeaf] [[]] 4, .coalesce 0, .finish, .reload, .prune 100, .coalesce 0] s ∧ (∀ d, (d, false) ∉ s.db.dirty) ∧
    (∀ max, 0 < max → (∃ o, UpdateSMT exH max s.db s.tree o) ∧ ∀ o, UpdateSMT exH max s.db s.tree o → o = none) ∧
    (∀ s', ¬ Step exH s .finish s') ∧ s.db.certs = [] ∧ Smt.get 0 s.served (exH [1]) ≠ none := by
  let db1 : DB := ⟨[⟨exH [7], [], 90, [7]⟩], [(exH [1], [1])], [(exH [1], exH [7])], [], [], [], [(exH [1], false)]⟩
  let db2 : DB := { db1 with payloads := [⟨exH [1], some (exH [7]), none⟩], dirty := [(exH [1], true)] }
  have r1 : Run exH [.certs [exLeaf] [[]] 4] ⟨db1, .empty, .empty⟩ := Run.nil.more (step_certs rfl (by decide +kernel))
  have r2 : Run exH [.certs [exLeaf] [[]] 4, .coalesce 0] ⟨db2, .empty, .empty⟩ :=
    r1.more (.coalesce 0 5 10 1 db2 (by decide +kernel) (by decide +kernel) (by omega) (by decide +kernel))
  have hn2 : ∀ op ∈ [Op.certs [exLeaf] [[]] 4, .coalesce 0], op.NoPrune := by simp [Op.NoPrune]
  have hc2 : ∀ op ∈ [Op.certs [exLeaf] [[]] 4, .coalesce 0], op.Complete := by simp [Op.Complete]
  have hw2 : ∀ d, (d, false) ∉ db2.dirty := fun d hd => by
    have := mem_one hd
    cases this
  obtain ⟨⟨o, ho⟩, hsome⟩ := C91_no_panic_partial exH exH_length _ _ r2 hn2 hc2 hw2 1 (by omega)
  obtain ⟨t, rfl⟩ := hsome o ho
  let db3 : DB := cleanupDirty db2
  have r4 : Run exH [.certs [exLeaf] [[]] 4, .coalesce 0, .finish, .reload] ⟨db3, t, t⟩ := (r2.more (.finish 1 t (by omega) hw2 ho)).more .reload
  have hn4 : ∀ op ∈ [Op.certs [exLeaf] [[]] 4, .coalesce 0, .finish, .reload], op.NoPrune := by simp [Op.NoPrune]
  obtain ⟨hsafe4, hx4⟩ := noPrune_safe exH_length r4 hn4
  let db5 : DB := { db3 with certs := [], dirty := [(exH [1], false)] }
  have p5 : pruneCerts 5 db3 100 = some db5 := by decide +kernel
  have st5 : Step exH ⟨db3, t, t⟩ (.prune 100) ⟨db5, t, t⟩ := .prune 100 5 db5 p5
  let db6 : DB := { db5 with payloads := [], domains := [], dirty := [(exH [1], true)] }
  have p6 : db5.certs.length < 5 ∧ db5.policies.length < 5 ∧ calcDirtyDomains 5 db5 0 10 = some (db6, 1) := by decide +kernel
  have st6 : Step exH ⟨db5, t, t⟩ (.coalesce 0) ⟨db6, t, t⟩ := .coalesce 0 5 10 1 db6 p6.1 p6.2.1 (by omega) p6.2.2
  have hsafe6 : SafeHist exH [.certs [exLeaf] [[]] 4, .coalesce 0, .finish, .reload, .prune 100, .coalesce 0] ⟨db6, t, t⟩ :=
    .snoc _ _ _ (.coalesce 0) (.snoc _ _ _ (.prune 100) hsafe4 True.intro st5) True.intro st6
  have hi := safe_sinv exH_length hsafe6
  have hw6 : ∀ d, (d, false) ∉ db6.dirty := fun d hd => by
    have := mem_one hd
    cases this
  have hs6 : Safe exH ⟨db6, t, t⟩ .smt := by
    intro max fuel n q bundles t' hmax hq hf hn hc hr
    apply safe_single hr
    have := (collect_perm hi.inv.keys.dirty hmax hf hn hc).length_eq
    simp only [List.length_flatten, List.map_map] at this ⊢
    have e : (List.length ∘ entriesPreserveMissing q) = List.length := by
      funext l
      simp [entriesPreserveMissing]
    rw [e, this]
    decide
  have hall : ∀ max, 0 < max → ∀ o, UpdateSMT exH max db6 t o → o = none := by
    intro max hmax o ho
    refine (C91_panic_iff_partial exH exH_length _ _ hsafe6 hs6 hw6 max hmax o ho).2 ⟨by simp [db6], fun d _ => ⟨?_, by simp [db6, db5, db3, db2, db1, cleanupDirty]⟩⟩
    rintro ⟨c, hcl⟩
    have := hcl.mem
    simp [db6, db5] at this
  refine ⟨⟨db6, t, t⟩, (r4.more st5).more st6, hw6, fun max hmax => ⟨updateSMT_exists exH hi.inv.keys.dirty _ hmax, hall max hmax⟩, ?_, rfl, ?_⟩
  · intro s' h
    cases h with
    | finish max t' hmax _ hu => cases hall max hmax _ hu
  · have hi4 := safe_sinv exH_length hsafe4
    have h1 := hi4.sync (exH [1]) (exH_length _) (by simp [IsDirty, db3, cleanupDirty])
    have hl : HasLink db3 (exH [1]) := Or.inl ⟨exH [7], by simp [db3, db2, db1, cleanupDirty]⟩
    have h2 : (tableOf db3 (exH [1])).ids ≠ [] := (hasLink_ids hi4 hx4 (d := exH [1]) (by simp [db3, cleanupDirty])).2 hl
    unfold SyncAt at h1
    rw [if_neg h2] at h1
    obtain ⟨v, _, h3⟩ := h1
    rw [h3]
    simp

/-! ## The hypotheses can be met -/

/-- A certificate with its issuer, and a policy for the same name. -/
def exOps : List Op := [.certs [exLeaf] [[⟨[8], [], 95⟩]] 4, .policies (some 64) [([1], [9])] 4, .certs [exLeaf] [[⟨[8], [], 95⟩]] 4]

example : (∃ (ps : List Nat) (s : Sys), Run exH (exOps ++ ps.map .coalesce ++ [.finish, .reload]) s) ∧ (∀ op ∈ exOps, op.NoPrune) ∧ (∀ op ∈ exOps, op.Complete) ∧
    Consistent exH exOps ∧ Belongs exH exOps [1] (exH [7]) ∧ Belongs exH exOps [1] (exH [8]) ∧ PolBelongs exH exOps [1] (exH [9]) ∧ ¬ Belongs exH exOps [2] (exH [8]) := by
  have hn : ∀ op ∈ exOps, op.NoPrune := by simp [exOps, Op.NoPrune]
  have hc : ∀ op ∈ exOps, op.Complete := by simp [exOps, Op.Complete]
  have hs : ∀ l c, Submitted exOps l c → l = exLeaf ∧ c = [⟨[8], [], 95⟩] := by
    rintro l c ⟨ls, cs, k, h1, h2⟩
    simp only [exOps, List.mem_cons, List.not_mem_nil, or_false, reduceCtorEq, false_or, Op.certs.injEq] at h1
    rcases h1 with ⟨rfl, rfl, rfl⟩ | ⟨rfl, rfl, rfl⟩ <;> simpa using h2
  have hp : ∀ p, PolSubmitted exOps p → p = ([1], [9]) := by
    rintro p ⟨ls, cs, k, h1, h2⟩
    simp only [exOps, List.mem_cons, List.not_mem_nil, or_false, reduceCtorEq, false_or, Op.policies.injEq] at h1
    obtain ⟨rfl, rfl, rfl⟩ := h1
    simpa using h2
  have hsub : Submitted exOps exLeaf [⟨[8], [], 95⟩] := ⟨_, _, _, List.mem_cons_self, by simp⟩
  have e1 : exH [7] ≠ exH [8] := by decide +kernel
  have e2 : exH [1] ≠ exH [2] := by decide +kernel
  refine ⟨?_, hn, hc, ⟨?_, ?_⟩, ⟨_, _, hsub, ⟨[1], by simp [exLeaf], rfl⟩, _, List.mem_cons_self, rfl⟩, ⟨_, _, hsub, ⟨[1], by simp [exLeaf], rfl⟩, ⟨[8], [], 95⟩, by simp, rfl⟩,
    ⟨([1], [9]), ⟨_, _, _, by simp only [exOps, List.mem_cons]; exact Or.inr (Or.inl rfl), List.mem_singleton.2 rfl⟩, rfl, rfl⟩, ?_⟩
  · have h1 : ∃ db1, (certSteps exH start.db [exLeaf] [[⟨[8], [], 95⟩]]).map (fun st => runSteps (st.take 4) start.db) = some db1 ∧
        ∃ db2, (policySteps exH db1 (some 64) [([1], [9])]).map (fun st => runSteps (st.take 4) db1) = some db2 ∧
        ∃ db3, (certSteps exH db2 [exLeaf] [[⟨[8], [], 95⟩]]).map (fun st => runSteps (st.take 4) db2) = some db3 := by
      have : (((certSteps exH start.db [exLeaf] [[⟨[8], [], 95⟩]]).map (fun st => runSteps (st.take 4) start.db)).bind fun db1 =>
          ((policySteps exH db1 (some 64) [([1], [9])]).map (fun st => runSteps (st.take 4) db1)).bind fun db2 =>
          (certSteps exH db2 [exLeaf] [[⟨[8], [], 95⟩]]).map (fun st => runSteps (st.take 4) db2)).isSome = true := by decide +kernel
      obtain ⟨db3, h3⟩ := Option.isSome_iff_exists.1 this
      obtain ⟨db1, h1, h3⟩ := Option.bind_eq_some_iff.1 h3
      obtain ⟨db2, h2, h3⟩ := Option.bind_eq_some_iff.1 h3
      exact ⟨db1, h1, db2, h2, db3, h3⟩
    obtain ⟨db1, a1, db2, a2, db3, a3⟩ := h1
    have r := ((Run.nil.more (step_certs (s := start) rfl a1)).more (step_policies (s := ⟨db1, .empty, .empty⟩) a2)).more (step_certs (s := ⟨db2, .empty, .empty⟩) rfl a3)
    exact C91_update_completes_partial exH exH_length exOps _ r hn hc
  · intro l c l' c' h h' j j' x x' hx hx' he
    obtain ⟨rfl, rfl⟩ := hs l c h
    obtain ⟨rfl, rfl⟩ := hs l' c' h'
    match j, j', hx, hx' with
    | 0, 0, _, _ => exact ⟨rfl, fun n => Iff.rfl⟩
    | 1, 1, _, _ => exact ⟨rfl, fun n => Iff.rfl⟩
    | 0, 1, hx, hx' => cases hx; cases hx'; exact absurd he e1
    | 1, 0, hx, hx' => cases hx; cases hx'; exact absurd he.symm e1
    | j + 2, _, hx, _ => cases hx
    | _, j + 2, _, hx => cases hx
  · intro p p' h h' _
    rw [hp p h, hp p' h']
  · rintro ⟨l, c, h, ⟨n, h1, h2⟩, _⟩
    obtain ⟨rfl, rfl⟩ := hs l c h
    rw [show n = [1] by simpa [exLeaf] using h1] at h2
    exact e2 h2

end Fpki.E2E
