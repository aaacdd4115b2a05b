import Verif.Props.Expiry

/-!
# C133: answers after pruning, whatever the dates
-/
namespace Fpki.E2E
open Fpki.Db Fpki.Smt Fpki.Dirty Fpki.Responder Fpki.Ids Fpki.Domain
open Fpki.Chains (X509)

/-! ## Specification -/

/-- The certificate was submitted with its chain, and nothing was pruned since. -/
def SincePruned (ops : List Op) (leaf : X509) (chain : List X509) : Prop :=
  ∃ before leaves chains k after, ops = before ++ Op.certs leaves chains k :: after ∧ (leaf, chain) ∈ leaves.zip chains ∧ ∀ cut, Op.prune cut ∉ after

/-- Everything that happened so far: insertions are not interrupted and UpdateSMT does not run into the bug of C05. -/
inductive Steady (H : Bytes → Bytes) : List Op → Sys → Prop
  | nil : Steady H [] start
  | snoc (ops : List Op) (s s' : Sys) (op : Op) : Steady H ops s → op.Complete → (op = .smt ∨ op = .finish → Safe H s op) → Step H s op s' → Steady H (ops ++ [op]) s'

/-! ## Proofs -/

theorem SincePruned.sub {ops : List Op} {leaf : X509} {chain : List X509} (h : SincePruned ops leaf chain) : Submitted ops leaf chain := by
  obtain ⟨b, ls, cs, k, a, rfl, h2, _⟩ := h
  exact ⟨ls, cs, k, by simp, h2⟩

theorem since_snoc {ops : List Op} {op : Op} {leaf : X509} {chain : List X509} : SincePruned (ops ++ [op]) leaf chain ↔
    (SincePruned ops leaf chain ∧ ∀ cut, op ≠ .prune cut) ∨ ∃ leaves chains k, op = .certs leaves chains k ∧ (leaf, chain) ∈ leaves.zip chains := by
  constructor
  · rintro ⟨b, ls, cs, k, a, h1, h2, h3⟩
    rcases List.eq_nil_or_concat a with rfl | ⟨a', op', rfl⟩
    · obtain ⟨rfl, h4⟩ := List.append_inj' h1 rfl
      exact .inr ⟨ls, cs, k, by simpa using h4, h2⟩
    · rw [List.concat_eq_append] at h1 h3
      rw [← List.cons_append, ← List.append_assoc] at h1
      obtain ⟨rfl, h4⟩ := List.append_inj' h1 rfl
      have h4 : op = op' := by simpa using h4
      subst h4
      exact .inl ⟨⟨b, ls, cs, k, a', rfl, h2, fun cut hc => h3 cut (List.mem_append_left _ hc)⟩, fun cut hc => h3 cut (by simp [hc])⟩
  · rintro (⟨⟨b, ls, cs, k, a, rfl, h2, h3⟩, h4⟩ | ⟨ls, cs, k, rfl, h2⟩)
    · refine ⟨b, ls, cs, k, a ++ [op], by simp, h2, fun cut hc => ?_⟩
      rcases List.mem_append.1 hc with hc | hc
      · exact h3 cut hc
      · exact h4 cut (List.mem_singleton.1 hc).symm
    · exact ⟨ops, ls, cs, k, [], rfl, h2, by simp⟩

/-- The tables hold what was submitted since the last pruning, nothing that was not submitted, and no certificate without its issuer. -/
structure HoldsSome (H : Bytes → Bytes) (ops : List Op) (db : DB) : Prop where
  stored : ∀ leaf chain, SincePruned ops leaf chain → ∀ x ∈ leaf :: chain, Stored db (H x.raw)
  certs : ∀ c ∈ db.certs, ∃ r, SubRow H ops r ∧ r.2.1 = c.id ∧ c.parent = r.2.2.1.getD []
  closed : ∀ c ∈ db.certs, c.parent ≠ [] → Stored db c.parent
  links : ∀ d i, (d, i) ∈ db.domainCerts ↔ ∃ r, SubRow H ops r ∧ r.2.1 = i ∧ ∃ n ∈ r.2.2.2.getD [], H n = d
  pols : ∀ i, (∃ c ∈ db.policies, c.id = i) ↔ ∃ p, PolSubmitted ops p ∧ H p.2 = i
  polLinks : ∀ d i, (d, i) ∈ db.domainPolicies ↔ ∃ p, PolSubmitted ops p ∧ H p.1 = d ∧ H p.2 = i

theorem since_same {ops : List Op} {op : Op} (h1 : ∀ l c k, op ≠ .certs l c k) {leaf : X509} {chain : List X509} (h : SincePruned (ops ++ [op]) leaf chain) : SincePruned ops leaf chain := by
  rcases since_snoc.1 h with h | ⟨l, c, k, h, _⟩
  · exact h.1
  · exact absurd h (h1 l c k)

theorem HoldsSome.same {H : Bytes → Bytes} {ops : List Op} {op : Op} {db db' : DB} (h : HoldsSome H ops db) (h1 : ∀ l c k, op ≠ .certs l c k) (h2 : ∀ l c k, op ≠ .policies l c k)
    (e1 : db'.certs = db.certs) (e2 : db'.domainCerts = db.domainCerts) (e3 : db'.policies = db.policies) (e4 : db'.domainPolicies = db.domainPolicies) :
    HoldsSome H (ops ++ [op]) db' := by
  constructor
  · intro leaf chain hr x hx
    unfold Stored
    rw [e1]
    exact h.stored leaf chain (since_same h1 hr) x hx
  · intro c hc
    rw [e1] at hc
    obtain ⟨r, h4, h5⟩ := h.certs c hc
    exact ⟨r, (subRow_same h1 r).2 h4, h5⟩
  · intro c hc
    unfold Stored
    rw [e1] at hc ⊢
    exact h.closed c hc
  · intro d i
    simp only [e2, subRow_same h1]
    exact h.links d i
  · intro i
    simp only [e3, polSub_same h2]
    exact h.pols i
  · intro d i
    simp only [e4, polSub_same h2]
    exact h.polLinks d i

theorem step_holdsSome {H : Bytes → Bytes} {ops : List Op} {op : Op} {s s' : Sys} (hk : Keys s.db) (h : HoldsSome H ops s.db) (hc : Consistent H (ops ++ [op]))
    (hcm : op.Complete) (hst : Step H s op s') : HoldsSome H (ops ++ [op]) s'.db := by
  cases hst with
  | certs leaves chains k st hl hst =>
    have hd := certs_done hl hst k
    have hk4 : 4 ≤ k := hcm
    show HoldsSome H _ (runSteps (st.take k) s.db)
    generalize runSteps (st.take k) s.db = db' at hd
    have hp := polSub_same (ops := ops) (op := .certs leaves chains k) (by intros; simp)
    constructor
    · intro leaf chain hr x hx
      rcases since_snoc.1 hr with h1 | ⟨l, c, k', h1, h2⟩
      · obtain ⟨c, h2, h3⟩ := h.stored leaf chain h1.1 x hx
        exact ⟨c, hd.keepCerts c h2, h3⟩
      · cases h1
        obtain ⟨j, hj⟩ := List.getElem?_of_mem hx
        exact hd.stored (by omega) _ (pathRow_iff.2 ⟨leaf, chain, h2, j, x, hj, rfl⟩)
    · intro c hcc
      rcases hd.newCerts c hcc with hold | ⟨_, r, h1, h2⟩
      · obtain ⟨r, h2, h3⟩ := h.certs c hold
        exact ⟨r, subRow_append.2 (Or.inl h2), h3⟩
      · exact ⟨r, subRow_append.2 (Or.inr (subRow_certs.2 h1)), h2⟩
    · intro c hcc hne
      rcases hd.newCerts c hcc with hold | ⟨_, r, h1, h2, h3⟩
      · obtain ⟨p, h2, h3⟩ := h.closed c hold hne
        exact ⟨p, hd.keepCerts p h2, h3⟩
      · obtain ⟨leaf, chain, h4, j, x, h5, rfl⟩ := pathRow_iff.1 h1
        dsimp only at h3
        cases hy : (leaf :: chain)[j + 1]? with
        | none => rw [hy] at h3; exact absurd h3 hne
        | some y =>
          rw [hy] at h3
          rw [h3]
          exact hd.stored (by omega) _ (pathRow_iff.2 ⟨leaf, chain, h4, j + 1, y, hy, rfl⟩)
    · intro d i
      constructor
      · intro hdi
        rcases hd.newLinks d i hdi with h1 | ⟨_, r, n, h1, h2, h3, h4⟩
        · obtain ⟨r, h2, h3⟩ := (h.links d i).1 h1
          exact ⟨r, subRow_append.2 (Or.inl h2), h3⟩
        · exact ⟨r, subRow_append.2 (Or.inr (subRow_certs.2 h1)), h2, n, h3, h4⟩
      · rintro ⟨r, hr, rfl, n, h2, rfl⟩
        rcases subRow_append.1 hr with h1 | h1
        · exact hd.keepLinks _ ((h.links _ _).2 ⟨r, h1, rfl, n, h2, rfl⟩)
        · by_cases hs : Stored s.db r.2.1
          · obtain ⟨c, h3, h4⟩ := hs
            obtain ⟨r', h5, h6, _⟩ := h.certs c h3
            have h7 := (hc.rows hr (subRow_append.2 (Or.inl h5)) (by rw [h6, h4])).2 n
            exact hd.keepLinks _ ((h.links _ _).2 ⟨r', h5, by rw [h6, h4], n, h7.1 h2, rfl⟩)
          · exact hd.linked hk4 r n (subRow_certs.1 h1) h2 hs
    · intro i
      rw [hd.policies]
      simp only [hp]
      exact h.pols i
    · intro d i
      rw [hd.domainPolicies]
      simp only [hp]
      exact h.polLinks d i
  | policies keep ps k st hst =>
    have hd := policies_done hst k
    have hk4 : 4 ≤ k := hcm
    show HoldsSome H _ (runSteps (st.take k) s.db)
    generalize runSteps (st.take k) s.db = db' at hd
    have hall : ∀ p ∈ ps, (H p.1, H p.2) ∈ db'.domainPolicies := by
      intro p hp
      rcases hd.linked hk4 p hp with h1 | h1
      · exact h1
      · obtain ⟨p', h2, h3⟩ := (h.pols _).1 h1
        have := hc.policies p p' (polSub_append.2 (Or.inr (polSub_policies.2 hp))) (polSub_append.2 (Or.inl h2)) h3.symm
        exact hd.keepLinks _ ((h.polLinks _ _).2 ⟨p', h2, this.symm, h3⟩)
    have hsr := subRow_same (H := H) (ops := ops) (op := .policies keep ps k) (by intros; simp)
    constructor
    · intro leaf chain h3 x hx
      unfold Stored
      rw [hd.certs]
      exact h.stored leaf chain (since_same (by intros; simp) h3) x hx
    · intro c hc
      rw [hd.certs] at hc
      obtain ⟨r, h3, h4⟩ := h.certs c hc
      exact ⟨r, (hsr r).2 h3, h4⟩
    · intro c hc
      unfold Stored
      rw [hd.certs] at hc ⊢
      exact h.closed c hc
    · intro d i
      simp only [hd.domainCerts, hsr]
      exact h.links d i
    · intro i
      constructor
      · rintro ⟨c, h1, rfl⟩
        rcases hd.newPolicies c h1 with h1 | ⟨p, h1, h2⟩
        · obtain ⟨p, h2, h3⟩ := (h.pols _).1 ⟨c, h1, rfl⟩
          exact ⟨p, polSub_append.2 (Or.inl h2), h3⟩
        · exact ⟨p, polSub_append.2 (Or.inr (polSub_policies.2 h1)), h2⟩
      · rintro ⟨p, h1, rfl⟩
        rcases polSub_append.1 h1 with h1 | h1
        · exact hd.keepPolicies _ ((h.pols _).2 ⟨p, h1, rfl⟩)
        · exact hd.stored hk4 p (polSub_policies.1 h1)
    · intro d i
      constructor
      · intro h1
        rcases hd.newLinks d i h1 with h1 | ⟨p, h1, h2⟩
        · obtain ⟨p, h2, h3⟩ := (h.polLinks d i).1 h1
          exact ⟨p, polSub_append.2 (Or.inl h2), h3⟩
        · exact ⟨p, polSub_append.2 (Or.inr (polSub_policies.2 h1)), h2⟩
      · rintro ⟨p, h1, rfl, rfl⟩
        rcases polSub_append.1 h1 with h1 | h1
        · exact hd.keepLinks _ ((h.polLinks _ _).2 ⟨p, h1, rfl, rfl⟩)
        · exact hall p (polSub_policies.1 h1)
  | prune cut fuel db' hp =>
    obtain ⟨_, p2, _, _, p5, p6, p7, _⟩ := C21_prune_result fuel s.db db' cut hp
    show HoldsSome H _ db'
    have hsr := subRow_same (H := H) (ops := ops) (op := .prune cut) (by intros; simp)
    constructor
    · intro leaf chain h1
      rcases since_snoc.1 h1 with h1 | ⟨_, _, _, h1, _⟩
      · exact absurd rfl (h1.2 cut)
      · cases h1
    · intro c hcm
      obtain ⟨r, g1, g2⟩ := h.certs c ((p2 c).1 hcm).1
      exact ⟨r, (hsr r).2 g1, g2⟩
    · intro c hcm hne
      obtain ⟨k1, k2⟩ := (p2 c).1 hcm
      obtain ⟨p, g1, g2⟩ := h.closed c k1 hne
      exact ⟨p, (p2 p).2 ⟨g1, fun hx => k2 (.child c k1 (by rw [← g2]; exact hx))⟩, g2⟩
    · intro d i
      simp only [p5, hsr]
      exact h.links d i
    · intro i
      simp only [p6, polSub_same (op := .prune cut) (by intros; simp)]
      exact h.pols i
    · intro d i
      simp only [p7, polSub_same (op := .prune cut) (by intros; simp)]
      exact h.polLinks d i
  | pruneCut cut fuel db' hp => exact h.same (by intros; simp) (by intros; simp) rfl rfl rfl rfl
  | coalesce p fuel chunk n db' h1 h2 h3 hcd =>
    obtain ⟨db1, k, h4, h5, _⟩ := calc_step hk (Progress.refl s.db) fuel p chunk h1 h2 h3
    rw [hcd] at h4
    cases h4
    exact h.same (by intros; simp) (by intros; simp) h5.certs h5.domainCerts h5.policies h5.domainPolicies
  | smt max t' hmax hw hu => exact h.same (by intros; simp) (by intros; simp) rfl rfl rfl rfl
  | finish max t' hmax hw hu => exact h.same (by intros; simp) (by intros; simp) rfl rfl rfl rfl
  | reload => exact h.same (by intros; simp) (by intros; simp) rfl rfl rfl rfl

/-- Submissions that agree never refer to something that was stored without them. -/
theorem certs_fresh_some {H : Bytes → Bytes} (hH : ∀ x, (H x).length = 32) {ops : List Op} {db : DB} {leaves : List X509} {chains : List (List X509)} {k : Nat} (hl : leaves.length = chains.length) (h : HoldsSome H ops db)
    (hc : Consistent H (ops ++ [.certs leaves chains k])) : Fresh H db (batchOf H leaves chains).names (batchOf H leaves chains).ids := by
  obtain ⟨rows, r1, r2, r3, _⟩ := batch_exps H hl
  intro i hi hns
  rw [r3] at hi
  obtain ⟨r, hr, rfl⟩ := List.mem_map.1 hi
  have hsr : SubRow H (ops ++ [.certs leaves chains k]) r := subRow_append.2 (.inr (subRow_certs.2 ((r1 r).1 hr)))
  constructor
  · intro c hcm he
    apply hns
    rw [← he]
    refine h.closed c hcm fun h0 => ?_
    obtain ⟨_, _, _, _, x', _, rfl⟩ := subRow_iff.1 hsr
    have h32 := hH x'.raw
    dsimp only at he
    rw [← he, h0] at h32
    cases h32
  · intro d hd
    obtain ⟨r', h1, h2, n, h3, h4⟩ := (h.links d _).1 hd
    have h5 := (hc.rows hsr (subRow_append.2 (.inl h1)) h2.symm).2 n
    refine ⟨r.2.2.2.getD [], ?_, n, h5.2 h3, h4⟩
    rw [r2, r3, List.zip_map', List.mem_map]
    exact ⟨r, hr, rfl⟩

theorem steady_holds {H : Bytes → Bytes} (hH : ∀ x, (H x).length = 32) {ops : List Op} {s : Sys} (h : Steady H ops s) (hc : Consistent H ops) : SafeHist H ops s ∧ HoldsSome H ops s.db := by
  induction h with
  | nil =>
    have h1 : ∀ r, ¬ SubRow H [] r := by rintro r ⟨_, _, _, h, _⟩; cases h
    have h2 : ∀ p, ¬ PolSubmitted [] p := by rintro r ⟨_, _, _, h, _⟩; cases h
    refine ⟨.nil, ⟨?_, by simp [start], by simp [start], by simp [start, h1], by simp [start, h2], by simp [start, h2]⟩⟩
    rintro l c ⟨b, _, _, _, _, h, _⟩
    simp at h
  | snoc ops s s' op hr hcm hs hst ih =>
    obtain ⟨i1, i2⟩ := ih (hc.mono fun o h => List.mem_append_left _ h)
    have hi := safe_sinv hH i1
    refine ⟨.snoc ops s s' op i1 ?_ hst, step_holdsSome hi.inv.keys i2 hc hcm hst⟩
    cases op with
    | certs leaves chains k =>
      cases hst with
      | certs _ _ _ st hl _ =>
        have hk : 4 ≤ k := hcm
        show if 2 ≤ k then _ else _
        rw [if_pos (by omega)]
        exact certs_fresh_some hH hl i2 hc
    | smt => exact hs (.inl rfl)
    | finish => exact hs (.inr rfl)
    | policies _ _ _ => exact True.intro
    | prune _ => exact True.intro
    | pruneCut _ => exact True.intro
    | coalesce _ => exact True.intro
    | reload => exact True.intro

/-- From a leaf in the closure of a domain one gets its whole chain. -/
theorem closure_chain {H : Bytes → Bytes} (hH : ∀ x, (H x).length = 32) {ops : List Op} {db : DB} (h : HoldsSome H ops db) (hc : Consistent H ops) {d : Bytes} {leaf : X509} {chain : List X509} (hs : Submitted ops leaf chain)
    (h0 : ∃ c, InClosure db.certs db.domainCerts d c ∧ c.id = H leaf.raw) : ∀ (j : Nat) (x : X509), (leaf :: chain)[j]? = some x → ∃ c, InClosure db.certs db.domainCerts d c ∧ c.id = H x.raw := by
  intro j
  induction j with
  | zero =>
    intro x hx
    cases hx
    exact h0
  | succ j ih =>
    intro x hj
    have hlt : j < (leaf :: chain).length := by
      have := (List.getElem?_eq_some_iff.1 hj).1
      omega
    obtain ⟨c, k1, k2⟩ := ih _ (List.getElem?_eq_getElem hlt)
    obtain ⟨r, g1, g2, g3⟩ := h.certs c k1.mem
    have h9 := (hc.rows g1 (subRow_iff.2 ⟨leaf, chain, hs, j, _, List.getElem?_eq_getElem hlt, rfl⟩) (by rw [g2, k2])).1
    dsimp only at h9
    rw [h9, hj] at g3
    replace g3 : c.parent = H x.raw := g3
    obtain ⟨p, k3, k4⟩ := h.closed c k1.mem (by
      rw [g3]
      intro h0
      have := hH x.raw
      rw [h0] at this
      cases this)
    exact ⟨p, .parent c p k1 k3 k4, by rw [k4, g3]⟩

/-- What is in the closure of a name: whole submitted chains. -/
theorem closure_some {H : Bytes → Bytes} (hH : ∀ x, (H x).length = 32) {ops : List Op} {db : DB} (h : HoldsSome H ops db) (hc : Consistent H ops) {d : Bytes} {c : Cert} (hcl : InClosure db.certs db.domainCerts d c) :
    ∃ leaf chain, Submitted ops leaf chain ∧ (∃ n ∈ leaf.names, H n = d) ∧ (∃ c, InClosure db.certs db.domainCerts d c ∧ c.id = H leaf.raw) ∧
      ∃ (j : Nat) (x : X509), (leaf :: chain)[j]? = some x ∧ c.id = H x.raw := by
  induction hcl with
  | link c hm hl =>
    obtain ⟨r, h1, h2, n, h3, h4⟩ := (h.links _ _).1 hl
    obtain ⟨r', g1, g2, _⟩ := h.certs c hm
    have h5 := ((hc.rows g1 h1 (by rw [g2, h2])).2 n).2 h3
    obtain ⟨leaf, chain, k1, j, x, k2, rfl⟩ := subRow_iff.1 g1
    dsimp only at h5
    rw [names_getD] at h5
    split at h5
    · rename_i hj
      subst hj
      have k2' := k2
      cases k2
      exact ⟨leaf, chain, k1, ⟨n, h5, h4⟩, ⟨c, .link c hm hl, g2.symm⟩, 0, leaf, k2', g2.symm⟩
    · cases h5
  | parent c p hcl hp he ih =>
    obtain ⟨leaf, chain, h5, h6, h6', j, x, h7, h8⟩ := ih
    obtain ⟨r, g1, g2, g3⟩ := h.certs c hcl.mem
    have hsr : SubRow H ops (x, H x.raw, ((leaf :: chain)[j + 1]?).map (fun x => H x.raw), if j = 0 then some leaf.names else none) :=
      subRow_iff.2 ⟨leaf, chain, h5, j, x, h7, rfl⟩
    have h9 := (hc.rows g1 hsr (by rw [g2, h8])).1
    dsimp only at h9
    rw [h9] at g3
    cases hx : (leaf :: chain)[j + 1]? with
    | none =>
      rw [hx] at g3
      obtain ⟨r', k1, k2, _⟩ := h.certs p hp
      obtain ⟨leaf', chain', _, j', x', _, rfl⟩ := subRow_iff.1 k1
      have h32 := hH x'.raw
      dsimp only at k2
      rw [k2, he, g3] at h32
      cases h32
    | some y =>
      rw [hx] at g3
      exact ⟨leaf, chain, h5, h6, h6', j + 1, y, hx, by rw [he, g3]; rfl⟩

theorem steady_end {H : Bytes → Bytes} {ops : List Op} {s : Sys} (hrun : Steady H (ops ++ [.finish, .reload]) s) : s.served = s.tree ∧ s.db.dirty = [] := by
  have e : ops ++ [Op.finish, Op.reload] = (ops ++ [.finish]) ++ [.reload] := by simp
  rw [e] at hrun
  generalize hl : (ops ++ [Op.finish]) ++ [.reload] = l at hrun
  cases hrun with
  | nil => simp at hl
  | snoc l1 s1 _ op1 hr1 _ _ hst1 =>
    obtain ⟨h1, h2⟩ := List.append_inj' hl rfl
    cases h2
    subst h1
    cases hst1
    generalize hl : ops ++ [Op.finish] = l at hr1
    cases hr1 with
    | nil => simp at hl
    | snoc l2 s2 _ op2 hr2 _ _ hst2 =>
      obtain ⟨h1, h2⟩ := List.append_inj' hl rfl
      cases h2
      cases hst2
      exact ⟨rfl, rfl⟩

/-- **C133** (partial: insertions not interrupted and agreeing with each other; UpdateSMT without the bug of C05; nothing about dates): certificates are submitted and pruned in any order, with whatever
dates stored. When the update is finished and the responder has loaded the tree, each answer verifies, and the IDs in it consist of whole chains: each is that of a certificate, or of one of the chain
of a certificate, submitted for the name, of which leaf and chain are all in the answer. Everything submitted for the name since the last pruning is in it. Policies are shown exactly; absence is
proved exactly if there is nothing to show. -/
theorem C133_any_dates_partial (H : Bytes → Bytes) (hH : ∀ x, (H x).length = 32) (psl : Psl) (ops : List Op) (s : Sys) (hrun : Steady H (ops ++ [.finish, .reload]) s)
    (hc : Consistent H ops) (name : Bytes) (out : Option (List Response)) (h : GetProof H psl s.served (tableOf s.db) name out) :
    out.map (List.map Response.domainName) = parseDomainName psl name ∧
    ∀ as, out = some as → ∀ a ∈ as, verifyProofByDomain H a = some (a.proofType, true) ∧
      ∃ cs ps : List Bytes, Ascending cs ∧ Ascending ps ∧ (a.proofType = PoP ↔ cs ++ ps ≠ []) ∧
        (a.proofType = PoP → ClientChecks H a.domainName a ∧ a.certIDs = cs.flatten ∧ a.policyIDs = ps.flatten) ∧
        (∀ i ∈ cs, ∃ leaf chain, Submitted ops leaf chain ∧ (∃ n ∈ leaf.names, H n = H a.domainName) ∧ (∃ c ∈ leaf :: chain, i = H c.raw) ∧ ∀ c ∈ leaf :: chain, H c.raw ∈ cs) ∧
        (∀ leaf chain, SincePruned ops leaf chain → (∃ n ∈ leaf.names, H n = H a.domainName) → ∀ c ∈ leaf :: chain, H c.raw ∈ cs) ∧
        (∀ i, i ∈ ps ↔ PolBelongs H ops a.domainName i) := by
  have hmore : ∀ op ∈ [Op.finish, Op.reload], op = .finish ∨ op = .reload := by simp
  have hs1 : ∀ l c, Submitted (ops ++ [.finish, .reload]) l c → Submitted ops l c := by
    rintro l c ⟨a, b, k, h2, h3⟩
    rcases List.mem_append.1 h2 with h2 | h2
    · exact ⟨a, b, k, h2, h3⟩
    · rcases hmore _ h2 with h | h <;> cases h
  have hc' : Consistent H (ops ++ [.finish, .reload]) := by
    have h2 : ∀ p, PolSubmitted (ops ++ [.finish, .reload]) p → PolSubmitted ops p := by
      rintro p ⟨a, b, k, h2, h3⟩
      rcases List.mem_append.1 h2 with h2 | h2
      · exact ⟨a, b, k, h2, h3⟩
      · rcases hmore _ h2 with h | h <;> cases h
    exact ⟨fun l c l' c' hl hl' => hc.certs l c l' c' (hs1 _ _ hl) (hs1 _ _ hl'), fun p p' hp hp' => hc.policies p p' (h2 _ hp) (h2 _ hp')⟩
  obtain ⟨hsafe, hh⟩ := steady_holds hH hrun hc'
  obtain ⟨hserved, hdirty⟩ := steady_end hrun
  obtain ⟨h1, h2⟩ := C91_answers_partial H hH psl _ s hsafe hserved name out h
  refine ⟨h1, fun as has a ha => ?_⟩
  have hnd : ¬ IsDirty s.db (H a.domainName) := by
    unfold IsDirty
    rw [hdirty]
    simp
  obtain ⟨_, _, g3, cs, ps, g4, g5, g6, g7, g8, g9⟩ := h2 as has a ha hnd
  have hpb := fun i => (belongs_append (H := H) (ops := ops) hmore a.domainName i).2
  refine ⟨g3, cs, ps, g4, g5, g8, fun hp => ⟨(g9 hp).2.2, (g9 hp).1, (g9 hp).2.1⟩, ?_, ?_, ?_⟩
  · intro i hi
    obtain ⟨c, k1, rfl⟩ := (g6 i).1 hi
    obtain ⟨leaf, chain, k2, k3, k4, j, x, k5, k6⟩ := closure_some hH hh hc' k1
    refine ⟨leaf, chain, hs1 _ _ k2, k3, ⟨x, List.mem_of_getElem? k5, k6⟩, fun y hy => ?_⟩
    obtain ⟨j', hj'⟩ := List.getElem?_of_mem hy
    exact (g6 _).2 (closure_chain hH hh hc' k2 k4 j' y hj')
  · rintro leaf chain k1 ⟨n, k2, k3⟩ y hy
    have k1' : SincePruned (ops ++ [.finish, .reload]) leaf chain := by
      rw [show ops ++ [Op.finish, Op.reload] = (ops ++ [.finish]) ++ [.reload] by simp]
      exact since_snoc.2 (.inl ⟨since_snoc.2 (.inl ⟨k1, by simp⟩), by simp⟩)
    obtain ⟨j', hj'⟩ := List.getElem?_of_mem hy
    refine (g6 _).2 (closure_chain hH hh hc' k1'.sub ?_ j' y hj')
    obtain ⟨c, g1, g2⟩ := hh.stored leaf chain k1' leaf List.mem_cons_self
    refine ⟨c, .link c g1 ?_, g2⟩
    rw [g2]
    exact (hh.links _ _).2 ⟨_, subRow_iff.2 ⟨leaf, chain, k1'.sub, 0, leaf, rfl, rfl⟩, rfl, n, k2, k3⟩
  · intro i
    rw [g7, ← hpb]
    constructor
    · rintro ⟨_, h⟩
      obtain ⟨p, k1, k2, k3⟩ := (hh.polLinks _ _).1 h
      exact ⟨p, k1, k2, k3.symm⟩
    · rintro ⟨p, k1, k2, rfl⟩
      exact ⟨(hh.pols _).2 ⟨p, k1, rfl⟩, (hh.polLinks _ _).2 ⟨p, k1, k2, rfl⟩⟩

/-! ## The hypotheses can be met -/

theorem SafeHist.steady {H : Bytes → Bytes} {ops : List Op} {s : Sys} (h : SafeHist H ops s) : (∀ op ∈ ops, op.Complete) → Steady H ops s := by
  induction h with
  | nil => exact fun _ => .nil
  | snoc ops s s' op _ h2 h3 ih => exact fun hc => .snoc ops s s' op (ih fun o ho => hc o (List.mem_append_left _ ho)) (hc op (by simp)) (fun _ => h2) h3

/-- The history of `C132_late_violated`, with dates mixed up; a submission that is not followed by a pruning is in it if it is repeated. -/
example : (∃ s, Steady exH ((exMixed 90 10 ++ [.prune 50]) ++ [.finish, .reload]) s) ∧ Consistent exH (exMixed 90 10 ++ [.prune 50]) ∧ ¬ (∃ l c, SincePruned (exMixed 90 10 ++ [.prune 50]) l c) ∧
    SincePruned (exMixed 90 10) (exCert 8 "h.com" 10) [] := by
  obtain ⟨t, h1, _⟩ := late_hist
  refine ⟨⟨_, SafeHist.steady (ops := (exMixed 90 10 ++ [.prune 50]) ++ [.finish, .reload]) (by simpa using h1) (by simp [exMixed, Op.Complete])⟩, ?_, ?_, ?_⟩
  · have hsub := exMixed_sub (a := 90) (b := 10) (more := [.prune 50]) (by simp)
    exact (two_consistent (ops := exMixed 90 10 ++ [.prune 50]) (fun l c h => (hsub l c).1 h) (by rintro p ⟨_, _, _, h, _⟩; simp [exMixed] at h) (show exH [7] ≠ exH [8] by decide +kernel)).1
  · rintro ⟨l, c, h⟩
    rcases since_snoc.1 h with h | ⟨_, _, _, h, _⟩
    · exact h.2 50 rfl
    · cases h
  · exact ⟨[.certs [exCert 7 "a.com" 90] [[]] 4], _, _, 4, [.coalesce 12, .coalesce 13, .finish], rfl, by simp, by simp⟩

theorem Tidy.steady {H : Bytes → Bytes} {ops : List Op} {s : Sys} (h : Tidy H ops s) : Steady H ops s := by
  induction h with
  | nil => exact .nil
  | snoc ops s s' op _ h1 _ h3 h4 ih => exact .snoc ops s s' op ih h1 h3 h4

end Fpki.E2E
