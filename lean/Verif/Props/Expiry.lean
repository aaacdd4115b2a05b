import Verif.Props.EndToEnd
import Verif.Props.SameRoot

/-!
# C132: from submissions, with pruning, to the answers
-/
namespace Fpki.E2E
open Fpki.Db Fpki.Smt Fpki.Dirty Fpki.Responder Fpki.Ids Fpki.Domain
open Fpki.Chains (X509)

/-! ## Specification -/

/-- The certificate was submitted with its chain, and no pruning after that was at a time when one of them had expired. -/
def Unexpired (ops : List Op) (leaf : X509) (chain : List X509) : Prop :=
  ∃ before leaves chains k after, ops = before ++ Op.certs leaves chains k :: after ∧ (leaf, chain) ∈ leaves.zip chains ∧
    ∀ cut, Op.prune cut ∈ after → ∀ c ∈ leaf :: chain, cut ≤ c.notAfter

/-- The ID of a certificate, or of one in the chain of a certificate, submitted for the name and not expired. -/
def StillBelongs (H : Bytes → Bytes) (ops : List Op) (name i : Bytes) : Prop :=
  ∃ leaf chain, Unexpired ops leaf chain ∧ (∃ n ∈ leaf.names, H n = H name) ∧ ∃ c ∈ leaf :: chain, i = H c.raw

/-- The same certificate always expires at the same time. -/
def Dated (H : Bytes → Bytes) (ops : List Op) : Prop :=
  ∀ leaf chain leaf' chain', Submitted ops leaf chain → Submitted ops leaf' chain' → ∀ c ∈ leaf :: chain, ∀ c' ∈ leaf' :: chain', H c.raw = H c'.raw → c.notAfter = c'.notAfter

/-- In the list that is made of a batch, no certificate that is stored precedes one that is not. -/
def InOrder (H : Bytes → Bytes) (db : DB) : Op → Prop
  | .certs leaves chains _ => ∀ (i j : Nat) (x y : Bytes), i < j → (Chains.unfoldCerts H leaves chains).ids[i]? = some x → (Chains.unfoldCerts H leaves chains).ids[j]? = some y → Stored db x → Stored db y
  | _ => True

/-- Everything that happened so far: insertions are not interrupted and are `InOrder`, and UpdateSMT does not run into the bug of C05. -/
inductive Tidy (H : Bytes → Bytes) : List Op → Sys → Prop
  | nil : Tidy H [] start
  | snoc (ops : List Op) (s s' : Sys) (op : Op) : Tidy H ops s → op.Complete → InOrder H s.db op → (op = .smt ∨ op = .finish → Safe H s op) → Step H s op s' → Tidy H (ops ++ [op]) s'

/-! ## Proofs -/

/-- Certificate `j` of the path, and those above it, have not expired since. -/
def LiveAt (ops : List Op) (leaf : X509) (chain : List X509) (j : Nat) : Prop :=
  ∃ before leaves chains k after, ops = before ++ Op.certs leaves chains k :: after ∧ (leaf, chain) ∈ leaves.zip chains ∧
    ∀ cut, Op.prune cut ∈ after → ∀ c ∈ (leaf :: chain).drop j, cut ≤ c.notAfter

theorem unexpired_iff {ops : List Op} {leaf : X509} {chain : List X509} : Unexpired ops leaf chain ↔ LiveAt ops leaf chain 0 := Iff.rfl

theorem LiveAt.sub {ops : List Op} {leaf : X509} {chain : List X509} {j : Nat} (h : LiveAt ops leaf chain j) : Submitted ops leaf chain := by
  obtain ⟨b, ls, cs, k, a, rfl, h2, _⟩ := h
  exact ⟨ls, cs, k, by simp, h2⟩

theorem LiveAt.up {ops : List Op} {leaf : X509} {chain : List X509} {j m : Nat} (h : LiveAt ops leaf chain j) (hm : j ≤ m) : LiveAt ops leaf chain m := by
  obtain ⟨b, ls, cs, k, a, h1, h2, h3⟩ := h
  refine ⟨b, ls, cs, k, a, h1, h2, fun cut hc c hcm => h3 cut hc c ?_⟩
  obtain ⟨d, rfl⟩ := Nat.exists_eq_add_of_le hm
  rw [← List.drop_drop] at hcm
  exact List.mem_of_mem_drop hcm

theorem liveAt_snoc {ops : List Op} {op : Op} {leaf : X509} {chain : List X509} {j : Nat} : LiveAt (ops ++ [op]) leaf chain j ↔
    (LiveAt ops leaf chain j ∧ ∀ cut, op = .prune cut → ∀ c ∈ (leaf :: chain).drop j, cut ≤ c.notAfter) ∨ ∃ leaves chains k, op = .certs leaves chains k ∧ (leaf, chain) ∈ leaves.zip chains := by
  constructor
  · rintro ⟨b, ls, cs, k, a, h1, h2, h3⟩
    rcases List.eq_nil_or_concat a with rfl | ⟨a', op', rfl⟩
    · obtain ⟨rfl, h4⟩ := List.append_inj' h1 rfl
      exact .inr ⟨ls, cs, k, by simpa using h4, h2⟩
    · rw [List.concat_eq_append] at h1 h3
      rw [← List.cons_append, ← List.append_assoc] at h1
      obtain ⟨rfl, h4⟩ := List.append_inj' h1 rfl
      have h4 : op = op' := by simpa using h4
      subst h4
      exact .inl ⟨⟨b, ls, cs, k, a', rfl, h2, fun cut hc => h3 cut (List.mem_append_left _ hc)⟩, fun cut hc => h3 cut (by simp [hc])⟩
  · rintro (⟨⟨b, ls, cs, k, a, rfl, h2, h3⟩, h4⟩ | ⟨ls, cs, k, rfl, h2⟩)
    · refine ⟨b, ls, cs, k, a ++ [op], by simp, h2, fun cut hc => ?_⟩
      rcases List.mem_append.1 hc with hc | hc
      · exact h3 cut hc
      · exact h4 cut (List.mem_singleton.1 hc).symm
    · exact ⟨ops, ls, cs, k, [], rfl, h2, by simp⟩

/-- A row of the submitted paths that has not expired. -/
def LiveRow (H : Bytes → Bytes) (ops : List Op) (r : Chains.Row) : Prop := ∃ leaf chain, ∃ (j : Nat) (x : X509), LiveAt ops leaf chain j ∧ (leaf :: chain)[j]? = some x ∧
  r = (x, H x.raw, ((leaf :: chain)[j + 1]?).map (fun x => H x.raw), if j = 0 then some leaf.names else none)

theorem LiveRow.sub {H : Bytes → Bytes} {ops : List Op} {r : Chains.Row} (h : LiveRow H ops r) : SubRow H ops r := by
  obtain ⟨leaf, chain, j, x, h1, h2, h3⟩ := h
  exact subRow_iff.2 ⟨leaf, chain, h1.sub, j, x, h2, h3⟩

/-- The tables hold exactly what was submitted and has not expired. -/
structure HoldsLive (H : Bytes → Bytes) (ops : List Op) (db : DB) : Prop where
  stored : ∀ r, LiveRow H ops r → Stored db r.2.1
  certs : ∀ c ∈ db.certs, ∃ r, LiveRow H ops r ∧ r.2.1 = c.id ∧ c.parent = r.2.2.1.getD [] ∧ c.expiration = r.1.notAfter
  links : ∀ d i, (d, i) ∈ db.domainCerts ↔ ∃ r, SubRow H ops r ∧ r.2.1 = i ∧ ∃ n ∈ r.2.2.2.getD [], H n = d
  pols : ∀ i, (∃ c ∈ db.policies, c.id = i) ↔ ∃ p, PolSubmitted ops p ∧ H p.2 = i
  polLinks : ∀ d i, (d, i) ∈ db.domainPolicies ↔ ∃ p, PolSubmitted ops p ∧ H p.1 = d ∧ H p.2 = i

/-- The step submits no certificate and prunes nothing. -/
theorem liveRow_same {H : Bytes → Bytes} {ops : List Op} {op : Op} (h1 : ∀ l c k, op ≠ .certs l c k) (h2 : ∀ cut, op ≠ .prune cut) (r : Chains.Row) : LiveRow H (ops ++ [op]) r ↔ LiveRow H ops r := by
  unfold LiveRow
  have : ∀ leaf chain j, LiveAt (ops ++ [op]) leaf chain j ↔ LiveAt ops leaf chain j := by
    intro leaf chain j
    rw [liveAt_snoc]
    constructor
    · rintro (h | ⟨l, c, k, h, _⟩)
      · exact h.1
      · exact absurd h (h1 l c k)
    · exact fun h => .inl ⟨h, fun cut hc => absurd hc (h2 cut)⟩
  simp only [this]

theorem subRow_same {H : Bytes → Bytes} {ops : List Op} {op : Op} (h1 : ∀ l c k, op ≠ .certs l c k) (r : Chains.Row) : SubRow H (ops ++ [op]) r ↔ SubRow H ops r := by
  rw [subRow_append, or_iff_left]
  rintro ⟨l, c, k, h, _⟩
  exact h1 l c k (List.mem_singleton.1 h).symm

theorem polSub_same {ops : List Op} {op : Op} (h2 : ∀ l c k, op ≠ .policies l c k) (p : Bytes × Bytes) : PolSubmitted (ops ++ [op]) p ↔ PolSubmitted ops p := by
  rw [polSub_append, or_iff_left]
  rintro ⟨l, c, k, h, _⟩
  exact h2 l c k (List.mem_singleton.1 h).symm

theorem HoldsLive.same {H : Bytes → Bytes} {ops : List Op} {op : Op} {db db' : DB} (h : HoldsLive H ops db) (h1 : ∀ l c k, op ≠ .certs l c k) (h2 : ∀ l c k, op ≠ .policies l c k) (h3 : ∀ cut, op ≠ .prune cut)
    (e1 : db'.certs = db.certs) (e2 : db'.domainCerts = db.domainCerts) (e3 : db'.policies = db.policies) (e4 : db'.domainPolicies = db.domainPolicies) :
    HoldsLive H (ops ++ [op]) db' := by
  constructor
  · intro r hr
    unfold Stored
    rw [e1]
    exact h.stored r ((liveRow_same h1 h3 r).1 hr)
  · intro c hc
    rw [e1] at hc
    obtain ⟨r, h4, h5⟩ := h.certs c hc
    exact ⟨r, (liveRow_same h1 h3 r).2 h4, h5⟩
  · intro d i
    simp only [e2, subRow_same h1]
    exact h.links d i
  · intro i
    simp only [e3, polSub_same h2]
    exact h.pols i
  · intro d i
    simp only [e4, polSub_same h2]
    exact h.polLinks d i

/-- The rows of a batch, with expirations. -/
theorem batch_exps (H : Bytes → Bytes) {leaves : List X509} {chains : List (List X509)} (hl : leaves.length = chains.length) :
    ∃ rows : List Chains.Row, (∀ r, r ∈ rows ↔ PathRow H leaves chains r) ∧ (batchOf H leaves chains).names = rows.map (fun r => r.2.2.2.getD []) ∧ (batchOf H leaves chains).ids = rows.map (fun r => r.2.1) ∧
      (batchOf H leaves chains).parents = rows.map (fun r => r.2.2.1) ∧ (batchOf H leaves chains).exps = rows.map (fun r => r.1.notAfter) := by
  obtain ⟨rows, h1, h2, _⟩ := Chains.C19_unfold_complete H leaves chains hl
  refine ⟨rows, fun r => ?_, ?_, ?_, ?_, ?_⟩
  · rw [h2.mem_iff, List.mem_flatMap]
    rfl
  · simp [batchOf, h1, Chains.ofRows]
  · simp [batchOf, h1, Chains.ofRows]
  · simp [batchOf, h1, Chains.ofRows]
  · simp [batchOf, h1, Chains.ofRows, Chains.extractExpirations]

/-- The new certificates of a batch in order have their own expiration. -/
theorem new_exp {H : Bytes → Bytes} {db : DB} {leaves : List X509} {chains : List (List X509)} (hl : leaves.length = chains.length) {st : List (DB → DB)} (hst : certSteps H db leaves chains = some st)
    {k : Nat} (hk : 4 ≤ k) (ho : InOrder H db (.certs leaves chains k)) {c : Cert} (hc : c ∈ (runSteps (st.take k) db).certs) (hn : c ∉ db.certs) :
    ∃ r, PathRow H leaves chains r ∧ r.2.1 = c.id ∧ c.parent = r.2.2.1.getD [] ∧ c.expiration = r.1.notAfter := by
  have hlen : st.length ≤ 4 := by
    have h := hst
    rw [certSteps_eq H db hl] at h
    rcases insertSteps_cases h with ⟨_, rfl⟩ | ⟨_, _, rfl⟩ <;> simp
  rw [List.take_of_length_le (by omega)] at hc
  have hu : updateWithKeepExisting H db (batchOf H leaves chains).names (batchOf H leaves chains).ids (batchOf H leaves chains).parents (batchOf H leaves chains).raws (batchOf H leaves chains).exps =
      some (runSteps st db) := by
    unfold updateWithKeepExisting
    have : keepExistingSteps H db (batchOf H leaves chains).names (batchOf H leaves chains).ids (batchOf H leaves chains).parents (batchOf H leaves chains).raws (batchOf H leaves chains).exps = some st := hst
    rw [this]
    rfl
  obtain ⟨j, ⟨h1, ⟨p, h2, h3⟩, _⟩, h4⟩ := C18_own_expiration_partial (batchOf_aligned H hl) ho hu c hc hn
  obtain ⟨rows, r1, r2, r3, r4, r5⟩ := batch_exps H hl
  rw [r3, List.getElem?_map] at h1
  rw [r4, List.getElem?_map] at h2
  rw [r5, List.getElem?_map] at h4
  cases hr : rows[j]? with
  | none => rw [hr] at h1; cases h1
  | some r =>
    rw [hr] at h1 h2 h4
    simp only [Option.map_some, Option.some.injEq] at h1 h2 h4
    exact ⟨r, (r1 r).1 (List.mem_of_getElem? hr), h1, by rw [← h3, h2], h4.symm⟩

theorem pathRow_iff {H : Bytes → Bytes} {leaves : List X509} {chains : List (List X509)} {r : Chains.Row} : PathRow H leaves chains r ↔ ∃ leaf chain, (leaf, chain) ∈ leaves.zip chains ∧
    ∃ (j : Nat) (x : X509), (leaf :: chain)[j]? = some x ∧ r = (x, H x.raw, ((leaf :: chain)[j + 1]?).map (fun x => H x.raw), if j = 0 then some leaf.names else none) := by
  constructor
  · rintro ⟨p, h2, h3⟩
    exact ⟨p.1, p.2, h2, (mem_pathRows _ _ _ _).1 h3⟩
  · rintro ⟨leaf, chain, h2, h3⟩
    exact ⟨(leaf, chain), h2, (mem_pathRows _ _ _ _).2 h3⟩

theorem liveRow_certs {H : Bytes → Bytes} {ops : List Op} {leaves : List X509} {chains : List (List X509)} {k : Nat} {r : Chains.Row} :
    LiveRow H (ops ++ [.certs leaves chains k]) r ↔ LiveRow H ops r ∨ PathRow H leaves chains r := by
  constructor
  · rintro ⟨leaf, chain, j, x, h1, h2, h3⟩
    rcases liveAt_snoc.1 h1 with h1 | ⟨l, c, k', h1, h4⟩
    · exact .inl ⟨leaf, chain, j, x, h1.1, h2, h3⟩
    · cases h1
      exact .inr (pathRow_iff.2 ⟨leaf, chain, h4, j, x, h2, h3⟩)
  · rintro (⟨leaf, chain, j, x, h1, h2, h3⟩ | h)
    · exact ⟨leaf, chain, j, x, liveAt_snoc.2 (.inl ⟨h1, fun cut hc => by cases hc⟩), h2, h3⟩
    · obtain ⟨leaf, chain, h1, j, x, h2, h3⟩ := pathRow_iff.1 h
      exact ⟨leaf, chain, j, x, liveAt_snoc.2 (.inr ⟨leaves, chains, k, rfl, h1⟩), h2, h3⟩

theorem Dated.mono {H : Bytes → Bytes} {ops ops' : List Op} (h : Dated H ops') (hs : ∀ o ∈ ops, o ∈ ops') : Dated H ops := by
  have h1 : ∀ l c, Submitted ops l c → Submitted ops' l c := fun l c ⟨a, b, k, h2, h3⟩ => ⟨a, b, k, hs _ h2, h3⟩
  exact fun l c l' c' hl hl' => h l c l' c' (h1 _ _ hl) (h1 _ _ hl')

theorem inExpired_mem {certs : List Cert} {cut : Nat} {i : Bytes} (h : InExpired certs cut i) : ∃ c ∈ certs, c.id = i := by
  cases h with
  | expired c hc _ => exact ⟨c, hc, rfl⟩
  | child c hc _ => exact ⟨c, hc, rfl⟩

/-- What the pruning selects: paths with an expired certificate. -/
theorem inExpired_path {H : Bytes → Bytes} (hH : ∀ x, (H x).length = 32) {ops : List Op} {db : DB} (h : HoldsLive H ops db) (hc : Consistent H ops) (hd : Dated H ops) {cut : Nat} {i : Bytes}
    (hx : InExpired db.certs cut i) : ∀ leaf chain, Submitted ops leaf chain → ∀ (j : Nat) (x : X509), (leaf :: chain)[j]? = some x → H x.raw = i → ∃ y ∈ (leaf :: chain).drop j, y.notAfter < cut := by
  have hmem : ∀ (l : List X509) (j : Nat) (x : X509), l[j]? = some x → x ∈ l.drop j := by
    intro l j x hj
    refine List.mem_of_getElem? (i := 0) ?_
    rw [List.getElem?_drop]
    exact hj
  induction hx with
  | expired c hcm he =>
    intro leaf chain hs j x hj hi
    obtain ⟨r, g1, g2, _, g4⟩ := h.certs c hcm
    obtain ⟨leaf', chain', h5, j', x', h6, rfl⟩ := subRow_iff.1 g1.sub
    have := hd leaf chain leaf' chain' hs h5 x (List.mem_of_getElem? hj) x' (List.mem_of_getElem? h6) (by rw [hi, ← g2])
    exact ⟨x, hmem _ _ _ hj, by rw [this]; rw [g4] at he; exact he⟩
  | child c hcm hp ih =>
    intro leaf chain hs j x hj hi
    obtain ⟨r, g1, g2, g3, _⟩ := h.certs c hcm
    have hsr : SubRow H ops (x, H x.raw, ((leaf :: chain)[j + 1]?).map (fun x => H x.raw), if j = 0 then some leaf.names else none) := subRow_iff.2 ⟨leaf, chain, hs, j, x, hj, rfl⟩
    have h9 := (hc.rows g1.sub hsr (by rw [g2, ← hi])).1
    dsimp only at h9
    rw [h9] at g3
    cases hy : (leaf :: chain)[j + 1]? with
    | none =>
      rw [hy] at g3
      obtain ⟨p, k1, k2⟩ := inExpired_mem hp
      obtain ⟨r', k3, k4, _⟩ := h.certs p k1
      obtain ⟨leaf', chain', _, j', x', _, rfl⟩ := subRow_iff.1 k3.sub
      have h32 := hH x'.raw
      dsimp only at k4
      rw [k4, k2, g3] at h32
      cases h32
    | some y =>
      rw [hy] at g3
      obtain ⟨z, k1, k2⟩ := ih leaf chain hs (j + 1) y hy (by rw [g3]; rfl)
      refine ⟨z, ?_, k2⟩
      rw [← List.drop_drop] at k1
      exact List.mem_of_mem_drop k1

/-- A stored path with an expired certificate is selected. -/
theorem path_inExpired {H : Bytes → Bytes} {ops : List Op} {db : DB} (h : HoldsLive H ops db) (hc : Consistent H ops) (hd : Dated H ops) {cut : Nat} {leaf : X509} {chain : List X509} {y : X509}
    (hy : y.notAfter < cut) : ∀ (d j : Nat), LiveAt ops leaf chain j → (leaf :: chain)[j + d]? = some y → ∀ x, (leaf :: chain)[j]? = some x → InExpired db.certs cut (H x.raw) := by
  intro d
  induction d with
  | zero =>
    intro j hl hm x hj
    rw [Nat.add_zero] at hm
    rw [hm] at hj
    cases hj
    obtain ⟨c, k1, k2⟩ := h.stored _ ⟨leaf, chain, j, y, hl, hm, rfl⟩
    obtain ⟨r, g1, g2, _, g4⟩ := h.certs c k1
    obtain ⟨leaf', chain', h5, j', x', h6, rfl⟩ := subRow_iff.1 g1.sub
    have := hd leaf chain leaf' chain' hl.sub h5 y (List.mem_of_getElem? hm) x' (List.mem_of_getElem? h6) (k2.symm.trans g2.symm)
    dsimp only at k2
    rw [← k2]
    exact .expired c k1 (by rw [g4]; dsimp only; omega)
  | succ d ih =>
    intro j hl hm x hj
    have hlt : j + 1 < (leaf :: chain).length := by
      have := (List.getElem?_eq_some_iff.1 hm).1
      omega
    have hz : (leaf :: chain)[j + 1]? = some (leaf :: chain)[j + 1] := List.getElem?_eq_getElem hlt
    have hexp := ih (j + 1) (hl.up (by omega)) (by rw [← hm]; congr 1; omega) _ hz
    obtain ⟨c, k1, k2⟩ := h.stored _ ⟨leaf, chain, j, x, hl, hj, rfl⟩
    obtain ⟨r, g1, g2, g3, _⟩ := h.certs c k1
    have hsr : SubRow H ops (x, H x.raw, ((leaf :: chain)[j + 1]?).map (fun x => H x.raw), if j = 0 then some leaf.names else none) := subRow_iff.2 ⟨leaf, chain, hl.sub, j, x, hj, rfl⟩
    have h9 := (hc.rows g1.sub hsr (by rw [g2, k2])).1
    dsimp only at h9 k2
    rw [h9, hz] at g3
    rw [← k2]
    refine .child c k1 ?_
    rw [g3]
    exact hexp

theorem prune_holds {H : Bytes → Bytes} (hH : ∀ x, (H x).length = 32) {ops : List Op} {db db' : DB} (h : HoldsLive H ops db) (hc : Consistent H ops) (hd : Dated H ops) {cut fuel : Nat}
    (hp : pruneCerts fuel db cut = some db') : HoldsLive H (ops ++ [.prune cut]) db' := by
  obtain ⟨_, p2, _, _, p5, p6, p7, _⟩ := C21_prune_result fuel db db' cut hp
  constructor
  · rintro r ⟨leaf, chain, j, x, h1, h2, rfl⟩
    rcases liveAt_snoc.1 h1 with ⟨h1, h3⟩ | ⟨_, _, _, h1, _⟩
    · obtain ⟨c, k1, k2⟩ := h.stored _ ⟨leaf, chain, j, x, h1, h2, rfl⟩
      refine ⟨c, (p2 c).2 ⟨k1, fun hx => ?_⟩, k2⟩
      obtain ⟨y, g1, g2⟩ := inExpired_path hH h hc hd hx leaf chain h1.sub j x h2 k2.symm
      have := h3 cut rfl y g1
      omega
    · cases h1
  · intro c hcm
    obtain ⟨k1, k2⟩ := (p2 c).1 hcm
    obtain ⟨r, ⟨leaf, chain, j, x, h1, h2, rfl⟩, g2, g3, g4⟩ := h.certs c k1
    refine ⟨_, ⟨leaf, chain, j, x, liveAt_snoc.2 (.inl ⟨h1, fun cut' hcut y hy => ?_⟩), h2, rfl⟩, g2, g3, g4⟩
    cases hcut
    by_contra hlt
    obtain ⟨d, hd'⟩ := List.getElem?_of_mem hy
    rw [List.getElem?_drop] at hd'
    have := path_inExpired h hc hd (cut := cut) (by omega) d j h1 hd' x h2
    dsimp only at g2
    rw [g2] at this
    exact k2 this
  · intro d i
    simp only [p5, subRow_same (op := .prune cut) (by intros; simp)]
    exact h.links d i
  · intro i
    simp only [p6, polSub_same (op := .prune cut) (by intros; simp)]
    exact h.pols i
  · intro d i
    simp only [p7, polSub_same (op := .prune cut) (by intros; simp)]
    exact h.polLinks d i

theorem step_holdsLive {H : Bytes → Bytes} (hH : ∀ x, (H x).length = 32) {ops : List Op} {op : Op} {s s' : Sys} (hk : Keys s.db) (h : HoldsLive H ops s.db) (hc : Consistent H (ops ++ [op])) (hdt : Dated H (ops ++ [op]))
    (hcm : op.Complete) (ho : InOrder H s.db op) (hst : Step H s op s') : HoldsLive H (ops ++ [op]) s'.db := by
  have hc0 : Consistent H ops := hc.mono fun o h => List.mem_append_left _ h
  have hd0 : Dated H ops := hdt.mono fun o h => List.mem_append_left _ h
  cases hst with
  | certs leaves chains k st hl hst =>
    have hd := certs_done hl hst k
    have hk4 : 4 ≤ k := hcm
    have hexp := fun c => new_exp hl hst hk4 ho (c := c)
    show HoldsLive H _ (runSteps (st.take k) s.db)
    generalize runSteps (st.take k) s.db = db' at hd hexp
    have hp := polSub_same (ops := ops) (op := .certs leaves chains k) (by intros; simp)
    constructor
    · intro r hr
      rcases liveRow_certs.1 hr with h1 | h1
      · obtain ⟨c, h2, h3⟩ := h.stored r h1
        exact ⟨c, hd.keepCerts c h2, h3⟩
      · exact hd.stored (by omega) r h1
    · intro c hcc
      by_cases hold : c ∈ s.db.certs
      · obtain ⟨r, h2, h3⟩ := h.certs c hold
        exact ⟨r, liveRow_certs.2 (Or.inl h2), h3⟩
      · obtain ⟨r, h1, h2⟩ := hexp c hcc hold
        exact ⟨r, liveRow_certs.2 (Or.inr h1), h2⟩
    · intro d i
      constructor
      · intro hdi
        rcases hd.newLinks d i hdi with h1 | ⟨_, r, n, h1, h2, h3, h4⟩
        · obtain ⟨r, h2, h3⟩ := (h.links d i).1 h1
          exact ⟨r, subRow_append.2 (Or.inl h2), h3⟩
        · exact ⟨r, subRow_append.2 (Or.inr (subRow_certs.2 h1)), h2, n, h3, h4⟩
      · rintro ⟨r, hr, rfl, n, h2, rfl⟩
        rcases subRow_append.1 hr with h1 | h1
        · exact hd.keepLinks _ ((h.links _ _).2 ⟨r, h1, rfl, n, h2, rfl⟩)
        · by_cases hs : Stored s.db r.2.1
          · obtain ⟨c, h3, h4⟩ := hs
            obtain ⟨r', h5, h6, _⟩ := h.certs c h3
            have h7 := (hc.rows hr (subRow_append.2 (Or.inl h5.sub)) (by rw [h6, h4])).2 n
            exact hd.keepLinks _ ((h.links _ _).2 ⟨r', h5.sub, by rw [h6, h4], n, h7.1 h2, rfl⟩)
          · exact hd.linked hk4 r n (subRow_certs.1 h1) h2 hs
    · intro i
      rw [hd.policies]
      simp only [hp]
      exact h.pols i
    · intro d i
      rw [hd.domainPolicies]
      simp only [hp]
      exact h.polLinks d i
  | policies keep ps k st hst =>
    have hd := policies_done hst k
    have hk4 : 4 ≤ k := hcm
    show HoldsLive H _ (runSteps (st.take k) s.db)
    generalize runSteps (st.take k) s.db = db' at hd
    have hall : ∀ p ∈ ps, (H p.1, H p.2) ∈ db'.domainPolicies := by
      intro p hp
      rcases hd.linked hk4 p hp with h1 | h1
      · exact h1
      · obtain ⟨p', h2, h3⟩ := (h.pols _).1 h1
        have := hc.policies p p' (polSub_append.2 (Or.inr (polSub_policies.2 hp))) (polSub_append.2 (Or.inl h2)) h3.symm
        exact hd.keepLinks _ ((h.polLinks _ _).2 ⟨p', h2, this.symm, h3⟩)
    have hlr := liveRow_same (H := H) (ops := ops) (op := .policies keep ps k) (by intros; simp) (by intros; simp)
    have hsr := subRow_same (H := H) (ops := ops) (op := .policies keep ps k) (by intros; simp)
    constructor
    · intro r h3
      unfold Stored
      rw [hd.certs]
      exact h.stored r ((hlr r).1 h3)
    · intro c hc
      rw [hd.certs] at hc
      obtain ⟨r, h3, h4⟩ := h.certs c hc
      exact ⟨r, (hlr r).2 h3, h4⟩
    · intro d i
      simp only [hd.domainCerts, hsr]
      exact h.links d i
    · intro i
      constructor
      · rintro ⟨c, h1, rfl⟩
        rcases hd.newPolicies c h1 with h1 | ⟨p, h1, h2⟩
        · obtain ⟨p, h2, h3⟩ := (h.pols _).1 ⟨c, h1, rfl⟩
          exact ⟨p, polSub_append.2 (Or.inl h2), h3⟩
        · exact ⟨p, polSub_append.2 (Or.inr (polSub_policies.2 h1)), h2⟩
      · rintro ⟨p, h1, rfl⟩
        rcases polSub_append.1 h1 with h1 | h1
        · exact hd.keepPolicies _ ((h.pols _).2 ⟨p, h1, rfl⟩)
        · exact hd.stored hk4 p (polSub_policies.1 h1)
    · intro d i
      constructor
      · intro h1
        rcases hd.newLinks d i h1 with h1 | ⟨p, h1, h2⟩
        · obtain ⟨p, h2, h3⟩ := (h.polLinks d i).1 h1
          exact ⟨p, polSub_append.2 (Or.inl h2), h3⟩
        · exact ⟨p, polSub_append.2 (Or.inr (polSub_policies.2 h1)), h2⟩
      · rintro ⟨p, h1, rfl, rfl⟩
        rcases polSub_append.1 h1 with h1 | h1
        · exact hd.keepLinks _ ((h.polLinks _ _).2 ⟨p, h1, rfl, rfl⟩)
        · exact hall p (polSub_policies.1 h1)
  | prune cut fuel db' hp => exact prune_holds hH h hc0 hd0 hp
  | pruneCut cut fuel db' hp => exact h.same (by intros; simp) (by intros; simp) (by intros; simp) rfl rfl rfl rfl
  | coalesce p fuel chunk n db' h1 h2 h3 hcd =>
    obtain ⟨db1, k, h4, h5, _⟩ := calc_step hk (Progress.refl s.db) fuel p chunk h1 h2 h3
    rw [hcd] at h4
    cases h4
    exact h.same (by intros; simp) (by intros; simp) (by intros; simp) h5.certs h5.domainCerts h5.policies h5.domainPolicies
  | smt max t' hmax hw hu => exact h.same (by intros; simp) (by intros; simp) (by intros; simp) rfl rfl rfl rfl
  | finish max t' hmax hw hu => exact h.same (by intros; simp) (by intros; simp) (by intros; simp) rfl rfl rfl rfl
  | reload => exact h.same (by intros; simp) (by intros; simp) (by intros; simp) rfl rfl rfl rfl

/-- Submissions that agree never refer to something that was stored without them. -/
theorem certs_fresh_live {H : Bytes → Bytes} (hH : ∀ x, (H x).length = 32) {ops : List Op} {db : DB} {leaves : List X509} {chains : List (List X509)} {k : Nat} (hl : leaves.length = chains.length) (h : HoldsLive H ops db)
    (hc : Consistent H (ops ++ [.certs leaves chains k])) : Fresh H db (batchOf H leaves chains).names (batchOf H leaves chains).ids := by
  obtain ⟨rows, r1, r2, r3, _⟩ := batch_exps H hl
  intro i hi hns
  rw [r3] at hi
  obtain ⟨r, hr, rfl⟩ := List.mem_map.1 hi
  have hsr : SubRow H (ops ++ [.certs leaves chains k]) r := subRow_append.2 (.inr (subRow_certs.2 ((r1 r).1 hr)))
  constructor
  · intro c hcm he
    obtain ⟨r', ⟨leaf, chain, j, x, h1, h2, rfl⟩, g2, g3, _⟩ := h.certs c hcm
    dsimp only at g3
    cases hy : (leaf :: chain)[j + 1]? with
    | none =>
      rw [hy] at g3
      obtain ⟨_, _, _, _, x', _, rfl⟩ := subRow_iff.1 hsr
      have h32 := hH x'.raw
      rw [g3] at he
      dsimp only at he
      rw [← he] at h32
      cases h32
    | some y =>
      rw [hy] at g3
      apply hns
      rw [← he, g3]
      exact h.stored _ ⟨leaf, chain, j + 1, y, h1.up (by omega), hy, rfl⟩
  · intro d hd
    obtain ⟨r', h1, h2, n, h3, h4⟩ := (h.links d _).1 hd
    have h5 := (hc.rows hsr (subRow_append.2 (.inl h1)) h2.symm).2 n
    refine ⟨r.2.2.2.getD [], ?_, n, h5.2 h3, h4⟩
    rw [r2, r3, List.zip_map', List.mem_map]
    exact ⟨r, hr, rfl⟩

/-- Tidy histories are safe, and the tables hold what was submitted and has not expired. -/
theorem tidy_holds {H : Bytes → Bytes} (hH : ∀ x, (H x).length = 32) {ops : List Op} {s : Sys} (h : Tidy H ops s) (hc : Consistent H ops) (hd : Dated H ops) : SafeHist H ops s ∧ HoldsLive H ops s.db := by
  induction h with
  | nil =>
    have h1 : ∀ r, ¬ SubRow H [] r := by rintro r ⟨_, _, _, h, _⟩; cases h
    have h2 : ∀ p, ¬ PolSubmitted [] p := by rintro r ⟨_, _, _, h, _⟩; cases h
    exact ⟨.nil, ⟨fun r h => absurd h.sub (h1 r), by simp [start], by simp [start, h1], by simp [start, h2], by simp [start, h2]⟩⟩
  | snoc ops s s' op hr hcm ho hs hst ih =>
    obtain ⟨i1, i2⟩ := ih (hc.mono fun o h => List.mem_append_left _ h) (hd.mono fun o h => List.mem_append_left _ h)
    have hi := safe_sinv hH i1
    refine ⟨.snoc ops s s' op i1 ?_ hst, step_holdsLive hH hi.inv.keys i2 hc hd hcm ho hst⟩
    cases op with
    | certs leaves chains k =>
      cases hst with
      | certs _ _ _ st hl _ =>
        have hk : 4 ≤ k := hcm
        show if 2 ≤ k then _ else _
        rw [if_pos (by omega)]
        exact certs_fresh_live hH hl i2 hc
    | smt => exact hs (.inl rfl)
    | finish => exact hs (.inr rfl)
    | policies _ _ _ => exact True.intro
    | prune _ => exact True.intro
    | pruneCut _ => exact True.intro
    | coalesce _ => exact True.intro
    | reload => exact True.intro

/-- The certificates of a name in the tables are those submitted for it that have not expired. -/
theorem closure_live {H : Bytes → Bytes} (hH : ∀ x, (H x).length = 32) {ops : List Op} {db : DB} (h : HoldsLive H ops db) (hc : Consistent H ops) (name i : Bytes) :
    (∃ c, InClosure db.certs db.domainCerts (H name) c ∧ c.id = i) ↔ StillBelongs H ops name i := by
  constructor
  · rintro ⟨c, hcl, rfl⟩
    have : ∃ leaf chain, Unexpired ops leaf chain ∧ (∃ n ∈ leaf.names, H n = H name) ∧ ∃ (j : Nat) (x : X509), (leaf :: chain)[j]? = some x ∧ c.id = H x.raw := by
      induction hcl with
      | link c hm hl =>
        obtain ⟨r, h1, h2, n, h3, h4⟩ := (h.links _ _).1 hl
        obtain ⟨r', g1, g2, _⟩ := h.certs c hm
        have h5 := ((hc.rows g1.sub h1 (by rw [g2, h2])).2 n).2 h3
        obtain ⟨leaf, chain, j, x, k1, k2, rfl⟩ := g1
        dsimp only at h5
        rw [names_getD] at h5
        split at h5
        · rename_i hj
          subst hj
          exact ⟨leaf, chain, k1, ⟨n, h5, h4⟩, 0, x, k2, g2.symm⟩
        · cases h5
      | parent c p hcl hp he ih =>
        obtain ⟨leaf, chain, h5, h6, j, x, h7, h8⟩ := ih
        obtain ⟨r, g1, g2, g3, _⟩ := h.certs c hcl.mem
        have hsr : SubRow H ops (x, H x.raw, ((leaf :: chain)[j + 1]?).map (fun x => H x.raw), if j = 0 then some leaf.names else none) :=
          subRow_iff.2 ⟨leaf, chain, (unexpired_iff.1 h5).sub, j, x, h7, rfl⟩
        have h9 := (hc.rows g1.sub hsr (by rw [g2, h8])).1
        dsimp only at h9
        rw [h9] at g3
        cases hx : (leaf :: chain)[j + 1]? with
        | none =>
          rw [hx] at g3
          obtain ⟨r', k1, k2, _⟩ := h.certs p hp
          obtain ⟨leaf', chain', _, j', x', _, rfl⟩ := subRow_iff.1 k1.sub
          have h32 := hH x'.raw
          dsimp only at k2
          rw [k2, he, g3] at h32
          cases h32
        | some y =>
          rw [hx] at g3
          exact ⟨leaf, chain, h5, h6, j + 1, y, hx, by rw [he, g3]; rfl⟩
    obtain ⟨leaf, chain, h1, h2, j, x, h3, h4⟩ := this
    exact ⟨leaf, chain, h1, h2, x, List.mem_of_getElem? h3, h4⟩
  · rintro ⟨leaf, chain, h1, ⟨n, h2, h2'⟩, x, h3, rfl⟩
    obtain ⟨j, hj⟩ := List.getElem?_of_mem h3
    have hrow : ∀ (j : Nat) (x : X509), (leaf :: chain)[j]? = some x → LiveRow H ops (x, H x.raw, ((leaf :: chain)[j + 1]?).map (fun x => H x.raw), if j = 0 then some leaf.names else none) :=
      fun j x hx => ⟨leaf, chain, j, x, (unexpired_iff.1 h1).up (Nat.zero_le _), hx, rfl⟩
    clear h3
    induction j generalizing x with
    | zero =>
      obtain ⟨c, k1, k2⟩ := h.stored _ (hrow 0 x hj)
      refine ⟨c, .link c k1 ?_, k2⟩
      rw [k2]
      exact (h.links _ _).2 ⟨_, (hrow 0 x hj).sub, rfl, n, h2, h2'⟩
    | succ j ih =>
      have hlt : j < (leaf :: chain).length := by
        have := (List.getElem?_eq_some_iff.1 hj).1
        omega
      obtain ⟨c, k1, k2⟩ := ih _ (List.getElem?_eq_getElem hlt)
      obtain ⟨p, k3, k4⟩ := h.stored _ (hrow (j + 1) x hj)
      refine ⟨p, .parent c p k1 k3 ?_, k4⟩
      obtain ⟨r, g1, g2, g3, _⟩ := h.certs c k1.mem
      have h9 := (hc.rows g1.sub (hrow j _ (List.getElem?_eq_getElem hlt)).sub (by rw [g2, k2])).1
      dsimp only at h9
      rw [h9, hj] at g3
      rw [g3, k4]
      rfl

/-- What the last two steps leave. -/
theorem tidy_end {H : Bytes → Bytes} {ops : List Op} {s : Sys} (hrun : Tidy H (ops ++ [.finish, .reload]) s) : s.served = s.tree ∧ s.db.dirty = [] := by
  have e : ops ++ [Op.finish, Op.reload] = (ops ++ [.finish]) ++ [.reload] := by simp
  rw [e] at hrun
  generalize hl : (ops ++ [Op.finish]) ++ [.reload] = l at hrun
  cases hrun with
  | nil => simp at hl
  | snoc l1 s1 _ op1 hr1 _ _ _ hst1 =>
    obtain ⟨h1, h2⟩ := List.append_inj' hl rfl
    cases h2
    subst h1
    cases hst1
    generalize hl : ops ++ [Op.finish] = l at hr1
    cases hr1 with
    | nil => simp at hl
    | snoc l2 s2 _ op2 hr2 _ _ _ hst2 =>
      obtain ⟨h1, h2⟩ := List.append_inj' hl rfl
      cases h2
      cases hst2
      exact ⟨rfl, rfl⟩

/-- **C132** (partial: insertions not interrupted, in order, and agreeing with each other; UpdateSMT without the bug of C05): certificates are submitted and pruned in any order; when the update is
finished and the responder has loaded the tree, each answer verifies; it says "present" exactly if a certificate that was not pruned, or a policy, was submitted for the name, and
then it returns exactly the IDs of these certificates with their chains, and of the policies, each once and in ascending order. So nothing is shown that had expired at the last pruning
after its last submission, and everything else is. -/
theorem C132_end_to_end_partial (H : Bytes → Bytes) (hH : ∀ x, (H x).length = 32) (psl : Psl) (ops : List Op) (s : Sys) (hrun : Tidy H (ops ++ [.finish, .reload]) s)
    (hc : Consistent H ops) (hd : Dated H ops) (name : Bytes) (out : Option (List Response)) (h : GetProof H psl s.served (tableOf s.db) name out) :
    out.map (List.map Response.domainName) = parseDomainName psl name ∧
    ∀ as, out = some as → ∀ a ∈ as,
      a.domainID = H a.domainName ∧ a.root = rootHash H 256 s.tree ∧ verifyProofByDomain H a = some (a.proofType, true) ∧
      (a.proofType = PoP ↔ ∃ i, StillBelongs H ops a.domainName i ∨ PolBelongs H ops a.domainName i) ∧
      (a.proofType = PoP → ClientChecks H a.domainName a ∧
        (∃ cs, Ascending cs ∧ (∀ i, i ∈ cs ↔ StillBelongs H ops a.domainName i) ∧ a.certIDs = cs.flatten) ∧
        (∃ ps, Ascending ps ∧ (∀ i, i ∈ ps ↔ PolBelongs H ops a.domainName i) ∧ a.policyIDs = ps.flatten)) := by
  have hmore : ∀ op ∈ [Op.finish, Op.reload], op = .finish ∨ op = .reload := by simp
  have hs1 : ∀ l c, Submitted (ops ++ [.finish, .reload]) l c → Submitted ops l c := by
    rintro l c ⟨a, b, k, h2, h3⟩
    rcases List.mem_append.1 h2 with h2 | h2
    · exact ⟨a, b, k, h2, h3⟩
    · rcases hmore _ h2 with h | h <;> cases h
  have hc' : Consistent H (ops ++ [.finish, .reload]) := by
    have h2 : ∀ p, PolSubmitted (ops ++ [.finish, .reload]) p → PolSubmitted ops p := by
      rintro p ⟨a, b, k, h2, h3⟩
      rcases List.mem_append.1 h2 with h2 | h2
      · exact ⟨a, b, k, h2, h3⟩
      · rcases hmore _ h2 with h | h <;> cases h
    exact ⟨fun l c l' c' hl hl' => hc.certs l c l' c' (hs1 _ _ hl) (hs1 _ _ hl'), fun p p' hp hp' => hc.policies p p' (h2 _ hp) (h2 _ hp')⟩
  have hd' : Dated H (ops ++ [.finish, .reload]) := fun l c l' c' hl hl' => hd l c l' c' (hs1 _ _ hl) (hs1 _ _ hl')
  obtain ⟨hsafe, hh⟩ := tidy_holds hH hrun hc' hd'
  obtain ⟨hserved, hdirty⟩ := tidy_end hrun
  obtain ⟨h1, h2⟩ := C91_answers_partial H hH psl _ s hsafe hserved name out h
  refine ⟨h1, fun as has a ha => ?_⟩
  have hnd : ¬ IsDirty s.db (H a.domainName) := by
    unfold IsDirty
    rw [hdirty]
    simp
  obtain ⟨g1, g2, g3, cs, ps, g4, g5, g6, g7, g8, g9⟩ := h2 as has a ha hnd
  have hb : ∀ i, StillBelongs H (ops ++ [.finish, .reload]) a.domainName i ↔ StillBelongs H ops a.domainName i := by
    intro i
    have : ∀ l c, Unexpired (ops ++ [.finish, .reload]) l c ↔ Unexpired ops l c := by
      intro l c
      rw [unexpired_iff, unexpired_iff, show ops ++ [Op.finish, Op.reload] = (ops ++ [.finish]) ++ [.reload] by simp, liveAt_snoc, liveAt_snoc]
      simp
    unfold StillBelongs
    simp only [this]
  have hpb := fun i => (belongs_append (H := H) (ops := ops) hmore a.domainName i).2
  have hcs : ∀ i, i ∈ cs ↔ StillBelongs H ops a.domainName i := fun i => by rw [g6, closure_live hH hh hc', hb]
  have hps : ∀ i, i ∈ ps ↔ PolBelongs H ops a.domainName i := by
    intro i
    rw [g7, ← hpb]
    constructor
    · rintro ⟨_, h⟩
      obtain ⟨p, k1, k2, k3⟩ := (hh.polLinks _ _).1 h
      exact ⟨p, k1, k2, k3.symm⟩
    · rintro ⟨p, k1, k2, rfl⟩
      exact ⟨(hh.pols _).2 ⟨p, k1, rfl⟩, (hh.polLinks _ _).2 ⟨p, k1, k2, rfl⟩⟩
  refine ⟨g1, g2, g3, ?_, ?_⟩
  · rw [g8]
    constructor
    · intro hne
      obtain ⟨i, hi⟩ := List.exists_mem_of_ne_nil _ hne
      rw [List.mem_append, hcs, hps] at hi
      exact ⟨i, hi⟩
    · rintro ⟨i, hi⟩
      rw [← hcs, ← hps, ← List.mem_append] at hi
      exact List.ne_nil_of_mem hi
  · intro hp
    obtain ⟨k1, k2, k3⟩ := g9 hp
    exact ⟨k3, ⟨cs, g4, hcs, k1⟩, ⟨ps, g5, hps, k2⟩⟩

/-! ## Dates that get mixed up: without `InOrder` neither direction holds -/

/-- The certificates of the examples. -/
def exCert (i : UInt8) (name : String) (exp : Nat) : X509 := ⟨[i], [asc name], exp⟩

/-- The tables after the two certificates were inserted with these expirations, with the given payloads and dirty rows. -/
def exTables (a b : Nat) (payloads : List Payload) (dirty : List (Bytes × Bool)) : DB :=
  ⟨[⟨exH [7], [], a, [7]⟩, ⟨exH [8], [], b, [8]⟩], [(exH (asc "a.com"), asc "a.com"), (exH (asc "h.com"), asc "h.com")], [(exH (asc "a.com"), exH [7]), (exH (asc "h.com"), exH [8])],
    [], [], payloads, dirty⟩

/-- The payloads of both. -/
def exPayloads : List Payload := [⟨exH (asc "a.com"), some (exH [7]), none⟩, ⟨exH (asc "h.com"), some (exH [8]), none⟩]

/-- One certificate is submitted, then again with another one; a cycle; later a pruning and another cycle. -/
def exMixed (a b : Nat) : List Op := [.certs [exCert 7 "a.com" a] [[]] 4, .certs [exCert 7 "a.com" a, exCert 8 "h.com" b] [[], []] 4, .coalesce 12, .coalesce 13, .finish]

theorem exMixed_sub {a b : Nat} {more : List Op} (hm : ∀ op ∈ more, ∀ l c k, op ≠ .certs l c k) (l : X509) (c : List X509) : Submitted (exMixed a b ++ more) l c ↔ (l = exCert 7 "a.com" a ∨ l = exCert 8 "h.com" b) ∧ c = [] := by
  constructor
  · rintro ⟨ls, cs, k, h1, h2⟩
    rcases List.mem_append.1 h1 with h1 | h1
    · simp only [exMixed, List.mem_cons, List.not_mem_nil, or_false, Op.certs.injEq, reduceCtorEq] at h1
      rcases h1 with ⟨rfl, rfl, rfl⟩ | ⟨rfl, rfl, rfl⟩
      · simp only [List.zip_cons_cons, List.zip_nil_right, List.mem_cons, List.not_mem_nil, or_false, Prod.mk.injEq] at h2
        exact ⟨.inl h2.1, h2.2⟩
      · simp only [List.zip_cons_cons, List.zip_nil_right, List.mem_cons, List.not_mem_nil, or_false, Prod.mk.injEq] at h2
        rcases h2 with ⟨rfl, rfl⟩ | ⟨rfl, rfl⟩ <;> simp
    · exact absurd rfl (hm _ h1 ls cs k)
  · rintro ⟨h, rfl⟩
    refine ⟨_, _, _, List.mem_append_left _ (by simp only [exMixed, List.mem_cons]; exact .inr (.inl rfl)), ?_⟩
    rcases h with rfl | rfl <;> simp

theorem two_consistent {ops : List Op} {x y : X509} (hs : ∀ l c, Submitted ops l c → (l = x ∨ l = y) ∧ c = []) (hp : ∀ p, ¬ PolSubmitted ops p) (hne : exH x.raw ≠ exH y.raw) : Consistent exH ops ∧ Dated exH ops := by
  refine ⟨⟨?_, fun p _ h => absurd h (hp p)⟩, ?_⟩
  · intro l c l' c' h1 h2 j j' d d' h3 h4 h5
    obtain ⟨g1, rfl⟩ := hs l c h1
    obtain ⟨g2, rfl⟩ := hs l' c' h2
    cases j with
    | succ j => simp at h3
    | zero =>
      cases j' with
      | succ j => simp at h4
      | zero =>
        simp only [List.getElem?_cons_zero, Option.some.injEq] at h3 h4
        subst h3 h4
        rcases g1 with rfl | rfl <;> rcases g2 with rfl | rfl
        · simp
        · exact absurd h5 hne
        · exact absurd h5.symm hne
        · simp
  · intro l c l' c' h1 h2 d h3 d' h4 h5
    obtain ⟨g1, rfl⟩ := hs l c h1
    obtain ⟨g2, rfl⟩ := hs l' c' h2
    simp only [List.mem_singleton] at h3 h4
    subst h3 h4
    rcases g1 with rfl | rfl <;> rcases g2 with rfl | rfl
    · rfl
    · exact absurd h5 hne
    · exact absurd h5.symm hne
    · rfl

theorem mem_two {α : Type _} {a b c : α} (h : a ∈ [b, c]) : a = b ∨ a = c := by simpa using h

/-- A clean state is not changed by another UpdateSMT. -/
theorem clean_safe {s : Sys} (hi : SInv exH s) (h0 : s.db.dirty = []) : Safe exH s .finish := by
  intro max fuel n q bundles t' hmax hq hf hn hc hr
  apply safe_single hr
  have := (collect_perm hi.inv.keys.dirty hmax hf hn hc).length_eq
  simp only [List.length_flatten, List.map_map] at this ⊢
  have e : (List.length ∘ entriesPreserveMissing q) = List.length := by
    funext l
    simp [entriesPreserveMissing]
  rw [e, this, h0]
  simp

/-- With one dirty domain UpdateSMT is safe. -/
theorem one_safe {s : Sys} (hi : SInv exH s) (h0 : s.db.dirty.length = 1) : Safe exH s .smt := by
  intro max fuel n q bundles t' hmax hq hf hn hc hr
  apply safe_single hr
  have := (collect_perm hi.inv.keys.dirty hmax hf hn hc).length_eq
  simp only [List.length_flatten, List.map_map] at this ⊢
  have e : (List.length ∘ entriesPreserveMissing q) = List.length := by
    funext l
    simp [entriesPreserveMissing]
  rw [e, this, List.length_map, h0]

/-- The history with the wrong date that is too late. -/
theorem late_hist : ∃ t, SafeHist exH (exMixed 90 10 ++ [.prune 50, .finish, .reload]) ⟨exTables 90 90 exPayloads [], t, t⟩ ∧ Run exH (exMixed 90 10 ++ [.prune 50, .finish, .reload]) ⟨exTables 90 90 exPayloads [], t, t⟩ := by
  let db1 : DB := ⟨[⟨exH [7], [], 90, [7]⟩], [(exH (asc "a.com"), asc "a.com")], [(exH (asc "a.com"), exH [7])], [], [], [], [(exH (asc "a.com"), false)]⟩
  let db2 : DB := exTables 90 90 [] [(exH (asc "a.com"), false), (exH (asc "h.com"), false)]
  let db3 : DB := exTables 90 90 [⟨exH (asc "a.com"), some (exH [7]), none⟩] [(exH (asc "a.com"), true), (exH (asc "h.com"), false)]
  let db4 : DB := exTables 90 90 exPayloads [(exH (asc "a.com"), true), (exH (asc "h.com"), true)]
  let db5 : DB := exTables 90 90 exPayloads []
  have r1 : Run exH [.certs [exCert 7 "a.com" 90] [[]] 4] ⟨db1, .empty, .empty⟩ := Run.nil.more (step_certs rfl (by decide +kernel))
  have r2 := r1.more (step_certs (s := ⟨db1, .empty, .empty⟩) (leaves := [exCert 7 "a.com" 90, exCert 8 "h.com" 10]) (chains := [[], []]) (k := 4) (db' := db2) rfl (by decide +kernel))
  have r3 := r2.more (.coalesce 12 5 10 1 db3 (by decide +kernel) (by decide +kernel) (by omega) (by decide +kernel))
  have r4 := r3.more (.coalesce 13 5 10 1 db4 (by decide +kernel) (by decide +kernel) (by omega) (by decide +kernel))
  have hw : ∀ d, (d, false) ∉ db4.dirty := fun d hd => by
    rcases mem_two hd with h | h <;> cases h
  obtain ⟨⟨o, ho⟩, hsome⟩ := C91_no_panic_partial exH exH_length _ _ r4 (by simp [Op.NoPrune]) (by simp [Op.Complete]) hw 1 (by omega)
  obtain ⟨t, rfl⟩ := hsome o ho
  have r5 : Run exH (exMixed 90 10) ⟨db5, t, .empty⟩ := r4.more (.finish 1 t (by omega) hw ho)
  obtain ⟨hsafe5, _⟩ := noPrune_safe exH_length r5 (by simp [exMixed, Op.NoPrune])
  have p6 : pruneCerts 5 db5 50 = some db5 := by decide +kernel
  have st6 : Step exH ⟨db5, t, .empty⟩ (.prune 50) ⟨db5, t, .empty⟩ := .prune 50 5 db5 p6
  have st7 : Step exH ⟨db5, t, .empty⟩ .finish ⟨db5, t, .empty⟩ := .finish 1 t (by omega) (fun d hd => by cases hd) (.clean rfl)
  have st8 : Step exH ⟨db5, t, .empty⟩ .reload ⟨db5, t, t⟩ := .reload
  have hs6 := SafeHist.snoc _ _ _ (.prune 50) hsafe5 True.intro st6
  have hs7 := SafeHist.snoc _ _ _ .finish hs6 (clean_safe (safe_sinv exH_length hs6) rfl) st7
  have hs8 := SafeHist.snoc _ _ _ .reload hs7 True.intro st8
  have r8 : Run exH (exMixed 90 10 ++ [.prune 50, .finish, .reload]) ⟨db5, t, t⟩ := ((r5.more st6).more st7).more st8
  exact ⟨t, by simpa using hs8, r8⟩

/-- **C132 violated** (an expired certificate is shown): a certificate that expired at 10 comes in a batch after one that is stored already. It gets the date of that one, so the pruning at 50 does
not remove it: the map server still proves it to be there. -/
theorem C132_late_violated : ∃ s as, ∃ a ∈ as, Run exH (exMixed 90 10 ++ [.prune 50, .finish, .reload]) s ∧ Consistent exH (exMixed 90 10 ++ [.prune 50, .finish, .reload]) ∧ Dated exH (exMixed 90 10 ++ [.prune 50, .finish, .reload]) ∧
    (¬ ∃ i, StillBelongs exH (exMixed 90 10 ++ [.prune 50, .finish, .reload]) (asc "h.com") i) ∧
    GetProof exH exPsl s.served (tableOf s.db) (asc "h.com") (some as) ∧ a.domainName = asc "h.com" ∧ a.proofType = PoP ∧ a.certIDs = exH [8] ∧ verifyProofByDomain exH a = some (PoP, true) := by
  obtain ⟨t, hs8, r8⟩ := late_hist
  let db5 : DB := exTables 90 90 exPayloads []
  obtain ⟨out, hg⟩ := getProof_total exH exPsl t (tableOf db5) (asc "h.com")
  obtain ⟨h1, h2⟩ := C91_answers_partial exH exH_length exPsl _ _ hs8 rfl _ _ hg
  rw [show parseDomainName exPsl (asc "h.com") = some [asc "h.com"] by decide +kernel] at h1
  cases out with
  | none => cases h1
  | some as =>
    obtain ⟨a, rfl, hname⟩ : ∃ a, as = [a] ∧ a.domainName = asc "h.com" := by
      simp only [Option.map_some, Option.some.injEq] at h1
      cases as with
      | nil => cases h1
      | cons a r =>
        cases r with
        | nil => exact ⟨a, rfl, by simpa using h1⟩
        | cons b r => simp at h1
    obtain ⟨_, _, g3, cs, ps, g4, _, g6, _, g8, g9⟩ := h2 _ rfl a List.mem_cons_self (by simp [IsDirty, db5, exTables])
    rw [hname] at g6
    have hcs : ∀ i, i ∈ cs ↔ i = exH [8] := by
      intro i
      rw [g6]
      constructor
      · rintro ⟨c, hc, rfl⟩
        suffices h : c = ⟨exH [8], [], 90, [8]⟩ by rw [h]
        induction hc with
        | link c hc hl =>
          rcases mem_two hc with rfl | rfl
          · exact absurd (show (exH (asc "h.com"), exH [7]) ∈ [(exH (asc "a.com"), exH [7]), (exH (asc "h.com"), exH [8])] from hl) (by decide +kernel)
          · rfl
        | parent c p hc hp he ih =>
          subst ih
          rcases mem_two hp with rfl | rfl
          · exact absurd (show exH [7] = [] from he) (by decide +kernel)
          · rfl
      · rintro rfl
        exact ⟨⟨exH [8], [], 90, [8]⟩, .link _ (by simp [db5, exTables]) (by simp [db5, exTables]), rfl⟩
    have hcs : cs = [exH [8]] := ascending_ext g4 (List.pairwise_singleton _ _) (fun i => by rw [hcs, List.mem_singleton])
    have hpop := g8.2 (by simp [hcs])
    rw [hpop] at g3
    obtain ⟨k1, k2, k3⟩ := g9 hpop
    have hsub := exMixed_sub (a := 90) (b := 10) (more := [.prune 50, .finish, .reload]) (by simp)
    obtain ⟨c1, c2⟩ := two_consistent (ops := exMixed 90 10 ++ [.prune 50, .finish, .reload]) (fun l c h => (hsub l c).1 h) (by rintro p ⟨_, _, _, h, _⟩; simp [exMixed] at h) (show exH [7] ≠ exH [8] by decide +kernel)
    refine ⟨⟨db5, t, t⟩, [a], a, List.mem_cons_self, r8, c1, c2, ?_, hg, hname, hpop, by rw [k1, hcs]; simp, g3⟩
    rintro ⟨i, leaf, chain, h3, ⟨n, h4, h5⟩, _⟩
    obtain ⟨h6 | h6, rfl⟩ := (hsub leaf chain).1 (unexpired_iff.1 h3).sub
    · subst h6
      simp only [exCert, List.mem_singleton] at h4
      subst h4
      exact absurd h5 (by decide +kernel)
    · rw [unexpired_iff, show exMixed 90 10 ++ [.prune 50, .finish, .reload] = ((exMixed 90 10 ++ [.prune 50]) ++ [.finish]) ++ [.reload] by simp, liveAt_snoc, liveAt_snoc, liveAt_snoc] at h3
      simp only [reduceCtorEq, false_and, exists_false, or_false, false_implies, implies_true, and_true, Op.prune.injEq] at h3
      have := h3.2 50 rfl leaf (by simp)
      rw [h6] at this
      exact absurd this (by decide)

/-- **C132 violated** (a valid certificate is lost): the other way round, a certificate valid until 90 gets the date 10 of the stored one that precedes it in its batch, and the pruning at 50 removes it. -/
theorem C132_early_violated : ∃ s, Run exH (exMixed 10 90 ++ [.prune 50]) s ∧ Consistent exH (exMixed 10 90 ++ [.prune 50]) ∧ Dated exH (exMixed 10 90 ++ [.prune 50]) ∧
    StillBelongs exH (exMixed 10 90 ++ [.prune 50]) (asc "h.com") (exH [8]) ∧ ¬ Stored s.db (exH [8]) := by
  let db1 : DB := ⟨[⟨exH [7], [], 10, [7]⟩], [(exH (asc "a.com"), asc "a.com")], [(exH (asc "a.com"), exH [7])], [], [], [], [(exH (asc "a.com"), false)]⟩
  let db2 : DB := exTables 10 10 [] [(exH (asc "a.com"), false), (exH (asc "h.com"), false)]
  let db3 : DB := exTables 10 10 [⟨exH (asc "a.com"), some (exH [7]), none⟩] [(exH (asc "a.com"), true), (exH (asc "h.com"), false)]
  let db4 : DB := exTables 10 10 exPayloads [(exH (asc "a.com"), true), (exH (asc "h.com"), true)]
  let db5 : DB := exTables 10 10 exPayloads []
  have r1 : Run exH [.certs [exCert 7 "a.com" 10] [[]] 4] ⟨db1, .empty, .empty⟩ := Run.nil.more (step_certs rfl (by decide +kernel))
  have r2 := r1.more (step_certs (s := ⟨db1, .empty, .empty⟩) (leaves := [exCert 7 "a.com" 10, exCert 8 "h.com" 90]) (chains := [[], []]) (k := 4) (db' := db2) rfl (by decide +kernel))
  have r3 := r2.more (.coalesce 12 5 10 1 db3 (by decide +kernel) (by decide +kernel) (by omega) (by decide +kernel))
  have r4 := r3.more (.coalesce 13 5 10 1 db4 (by decide +kernel) (by decide +kernel) (by omega) (by decide +kernel))
  have hw : ∀ d, (d, false) ∉ db4.dirty := fun d hd => by
    rcases mem_two hd with h | h <;> cases h
  obtain ⟨⟨o, ho⟩, hsome⟩ := C91_no_panic_partial exH exH_length _ _ r4 (by simp [Op.NoPrune]) (by simp [Op.Complete]) hw 1 (by omega)
  obtain ⟨t, rfl⟩ := hsome o ho
  have r5 : Run exH (exMixed 10 90) ⟨db5, t, .empty⟩ := r4.more (.finish 1 t (by omega) hw ho)
  let db6 : DB := { db5 with certs := [], dirty := [(exH (asc "a.com"), false), (exH (asc "h.com"), false)] }
  have p6 : pruneCerts 5 db5 50 = some db6 := by decide +kernel
  have st6 : Step exH ⟨db5, t, .empty⟩ (.prune 50) ⟨db6, t, .empty⟩ := .prune 50 5 db6 p6
  have hsub := exMixed_sub (a := 10) (b := 90) (more := [.prune 50]) (by simp)
  obtain ⟨c1, c2⟩ := two_consistent (ops := exMixed 10 90 ++ [.prune 50]) (fun l c h => (hsub l c).1 h) (by rintro p ⟨_, _, _, h, _⟩; simp [exMixed] at h) (show exH [7] ≠ exH [8] by decide +kernel)
  refine ⟨⟨db6, t, .empty⟩, r5.more st6, c1, c2, ⟨exCert 8 "h.com" 90, [], ?_, ⟨_, List.mem_singleton.2 rfl, rfl⟩, _, List.mem_singleton.2 rfl, rfl⟩, ?_⟩
  · refine ⟨[.certs [exCert 7 "a.com" 10] [[]] 4], _, _, 4, [.coalesce 12, .coalesce 13, .finish, .prune 50], rfl, by simp, ?_⟩
    intro cut hcut c hc
    simp only [List.mem_cons, reduceCtorEq, Op.prune.injEq, List.not_mem_nil, or_false, false_or] at hcut hc
    subst hcut hc
    decide
  · rintro ⟨c, h, _⟩
    cases h

/-! ## The hypotheses can be met -/

/-- Both certificates in one batch. -/
def exTidy : List Op := [.certs [exCert 7 "a.com" 90, exCert 8 "h.com" 40] [[], []] 4, .coalesce 12, .coalesce 13, .finish, .prune 50, .coalesce 13]

/-- A pruning that removes one certificate and not the other one, and then both updates are finished. -/
theorem tidy_example : (∃ s, Tidy exH (exTidy ++ [.finish, .reload]) s) ∧ Consistent exH exTidy ∧ Dated exH exTidy ∧ StillBelongs exH exTidy (asc "a.com") (exH [7]) ∧ ¬ ∃ i, StillBelongs exH exTidy (asc "h.com") i := by
  have hsub : ∀ l c, Submitted exTidy l c ↔ (l = exCert 7 "a.com" 90 ∨ l = exCert 8 "h.com" 40) ∧ c = [] := by
    intro l c
    constructor
    · rintro ⟨ls, cs, k, h1, h2⟩
      simp only [exTidy, List.mem_cons, List.not_mem_nil, or_false, Op.certs.injEq, reduceCtorEq] at h1
      obtain ⟨rfl, rfl, rfl⟩ := h1
      simp only [List.zip_cons_cons, List.zip_nil_right, List.mem_cons, List.not_mem_nil, or_false, Prod.mk.injEq] at h2
      rcases h2 with ⟨rfl, rfl⟩ | ⟨rfl, rfl⟩ <;> simp
    · rintro ⟨h, rfl⟩
      refine ⟨_, _, _, List.mem_cons_self, ?_⟩
      rcases h with rfl | rfl <;> simp
  obtain ⟨c1, c2⟩ := two_consistent (ops := exTidy) (fun l c h => (hsub l c).1 h) (by rintro p ⟨_, _, _, h, _⟩; simp [exTidy] at h) (show exH [7] ≠ exH [8] by decide +kernel)
  refine ⟨?_, c1, c2, ⟨exCert 7 "a.com" 90, [], ?_, ⟨_, List.mem_singleton.2 rfl, rfl⟩, _, List.mem_singleton.2 rfl, rfl⟩, ?_⟩
  · let db2 : DB := exTables 90 40 [] [(exH (asc "a.com"), false), (exH (asc "h.com"), false)]
    let db3 : DB := exTables 90 40 [⟨exH (asc "a.com"), some (exH [7]), none⟩] [(exH (asc "a.com"), true), (exH (asc "h.com"), false)]
    let db4 : DB := exTables 90 40 exPayloads [(exH (asc "a.com"), true), (exH (asc "h.com"), true)]
    let db5 : DB := exTables 90 40 exPayloads []
    let db6 : DB := { db5 with certs := [⟨exH [7], [], 90, [7]⟩], dirty := [(exH (asc "h.com"), false)] }
    have hst2 : Step exH start (.certs [exCert 7 "a.com" 90, exCert 8 "h.com" 40] [[], []] 4) ⟨db2, .empty, .empty⟩ := step_certs rfl (by decide +kernel)
    have hst3 : Step exH ⟨db2, .empty, .empty⟩ (.coalesce 12) ⟨db3, .empty, .empty⟩ := .coalesce 12 5 10 1 db3 (by decide +kernel) (by decide +kernel) (by omega) (by decide +kernel)
    have hst4 : Step exH ⟨db3, .empty, .empty⟩ (.coalesce 13) ⟨db4, .empty, .empty⟩ := .coalesce 13 5 10 1 db4 (by decide +kernel) (by decide +kernel) (by omega) (by decide +kernel)
    have hw : ∀ d, (d, false) ∉ db4.dirty := fun d hd => by
      rcases mem_two hd with h | h <;> cases h
    have t2 := Tidy.snoc _ _ _ _ Tidy.nil (show Op.Complete (.certs [exCert 7 "a.com" 90, exCert 8 "h.com" 40] [[], []] 4) from Nat.le_refl 4)
      (show InOrder exH start.db (.certs [exCert 7 "a.com" 90, exCert 8 "h.com" 40] [[], []] 4) from fun i j x y _ _ _ ⟨c, hc, _⟩ => by cases hc) (by rintro (h | h) <;> cases h) hst2
    have t3 := Tidy.snoc _ _ _ (.coalesce 12) t2 True.intro True.intro (by rintro (h | h) <;> cases h) hst3
    have t4 := Tidy.snoc _ _ _ (.coalesce 13) t3 True.intro True.intro (by rintro (h | h) <;> cases h) hst4
    have r4 := ((Run.nil.more hst2).more hst3).more hst4
    obtain ⟨hsafe4, hx4⟩ := noPrune_safe exH_length r4 (by simp [Op.NoPrune])
    have hi4 := safe_sinv exH_length hsafe4
    obtain ⟨⟨o, ho⟩, hsome⟩ := C91_no_panic_partial exH exH_length _ _ r4 (by simp [Op.NoPrune]) (by simp [Op.Complete]) hw 1 (by omega)
    obtain ⟨t, rfl⟩ := hsome o ho
    have hst5 : Step exH ⟨db4, .empty, .empty⟩ .finish ⟨db5, t, .empty⟩ := .finish 1 t (by omega) hw ho
    have hs4 : Safe exH ⟨db4, .empty, .empty⟩ .finish := smt_safe hi4 hx4 hw
    have t5 := Tidy.snoc _ _ _ .finish t4 True.intro True.intro (fun _ => hs4) hst5
    have sf5 := SafeHist.snoc _ _ _ .finish hsafe4 hs4 hst5
    have p6 : pruneCerts 5 db5 50 = some db6 := by decide +kernel
    have hst6 : Step exH ⟨db5, t, .empty⟩ (.prune 50) ⟨db6, t, .empty⟩ := .prune 50 5 db6 p6
    have t6 := Tidy.snoc _ _ _ (.prune 50) t5 True.intro True.intro (by rintro (h | h) <;> cases h) hst6
    have sf6 := SafeHist.snoc _ _ _ (.prune 50) sf5 True.intro hst6
    let db7 : DB := { db6 with domains := [(exH (asc "a.com"), asc "a.com")], payloads := [⟨exH (asc "a.com"), some (exH [7]), none⟩], dirty := [(exH (asc "h.com"), true)] }
    have p7 : db6.certs.length < 5 ∧ db6.policies.length < 5 ∧ calcDirtyDomains 5 db6 13 10 = some (db7, 1) := by decide +kernel
    have hst7 : Step exH ⟨db6, t, .empty⟩ (.coalesce 13) ⟨db7, t, .empty⟩ := .coalesce 13 5 10 1 db7 p7.1 p7.2.1 (by omega) p7.2.2
    have t7 := Tidy.snoc _ _ _ (.coalesce 13) t6 True.intro True.intro (by rintro (h | h) <;> cases h) hst7
    have sf7 := SafeHist.snoc _ _ _ (.coalesce 13) sf6 True.intro hst7
    have hi7 := safe_sinv exH_length sf7
    have hs7 : Safe exH ⟨db7, t, .empty⟩ .finish := one_safe hi7 rfl
    have hw7 : ∀ d, (d, false) ∉ db7.dirty := fun d hd => by
      have := mem_one hd
      cases this
    obtain ⟨o, ho⟩ := updateSMT_exists exH hi7.inv.keys.dirty t (max := 1) (by omega)
    have hne : o ≠ none := by
      intro h
      have := ((C91_panic_iff_partial exH exH_length _ _ sf7 hs7 hw7 1 (by omega) o ho).1 h).2 (exH (asc "a.com")) (exH_length _)
      exact this.1 ⟨⟨exH [7], [], 90, [7]⟩, .link _ (List.mem_singleton.2 rfl) (by simp [db7, db6, db5, exTables])⟩
    obtain ⟨t', rfl⟩ := Option.ne_none_iff_exists'.1 hne
    have hst8 : Step exH ⟨db7, t, .empty⟩ .finish ⟨cleanupDirty db7, t', .empty⟩ := .finish 1 t' (by omega) hw7 ho
    have t8 := Tidy.snoc _ _ _ .finish t7 True.intro True.intro (fun _ => hs7) hst8
    exact ⟨_, Tidy.snoc _ _ _ .reload t8 True.intro True.intro (by rintro (h | h) <;> cases h) .reload⟩
  · refine ⟨[], _, _, 4, _, rfl, List.mem_cons_self, ?_⟩
    intro cut hcut c hc
    simp only [List.mem_cons, reduceCtorEq, Op.prune.injEq, List.not_mem_nil, or_false, false_or] at hcut hc
    subst hcut hc
    decide
  · rintro ⟨i, leaf, chain, h3, ⟨n, h4, h5⟩, _⟩
    obtain ⟨h6 | h6, rfl⟩ := (hsub leaf chain).1 (unexpired_iff.1 h3).sub
    · subst h6
      simp only [exCert, List.mem_singleton] at h4
      subst h4
      exact absurd h5 (by decide +kernel)
    · rw [unexpired_iff, show exTidy = ([.certs [exCert 7 "a.com" 90, exCert 8 "h.com" 40] [[], []] 4, .coalesce 12, .coalesce 13, .finish] ++ [.prune 50]) ++ [.coalesce 13] from rfl, liveAt_snoc, liveAt_snoc] at h3
      simp only [reduceCtorEq, false_and, exists_false, or_false, false_implies, implies_true, and_true, Op.prune.injEq] at h3
      have := h3.2 50 rfl leaf (by simp)
      rw [h6] at this
      exact absurd this (by decide)

end Fpki.E2E
