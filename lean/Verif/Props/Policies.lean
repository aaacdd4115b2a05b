import Verif.Props.EndToEnd

/-!
# C115: storing policies
`UpdateWithKeepExisting` and `UpdateWithOverwrite` for policy documents (updater.go:351-365, 413-435, 634-676). The model is `policySteps` in `Verif.Model.EndToEnd`, with the four
statements of `Db.insertPolicySteps`.
-/
namespace Fpki.E2E
open Fpki.Db

/-! ## Specification -/

/-- The policy is stored with its payload and belongs to its domain, the domain has a name, and its payload is to be recomputed. -/
structure PolicyStored (H : Bytes → Bytes) (db : DB) (subject payload : Bytes) : Prop where
  row : ∃ c ∈ db.policies, c.id = H payload ∧ c.payload = payload
  link : (H subject, H payload) ∈ db.domainPolicies
  name : ∃ n, (H subject, n) ∈ db.domains
  waits : (H subject, false) ∈ db.dirty

/-- A policy with this ID is stored. -/
def HasPolicy (db : DB) (i : Bytes) : Prop := ∃ c ∈ db.policies, c.id = i

/-- Different payloads of these policies have different hashes. -/
def PayloadsDiffer (H : Bytes → Bytes) (ps : List (Bytes × Bytes)) : Prop := ∀ p ∈ ps, ∀ q ∈ ps, H p.2 = H q.2 → p.2 = q.2

/-! ## Tables -/

theorem insertIgnore_noop {κ : Type} [BEq κ] [LawfulBEq κ] (key : α → κ) : ∀ (rows t : List α), (∀ r ∈ rows, ∃ x ∈ t, key x = key r) → insertIgnore key t rows = t
  | [], _, _ => rfl
  | r :: rows, t, h => by
    have unf : insertIgnore key t (r :: rows) = insertIgnore key (if t.any (fun x => key x == key r) then t else t ++ [r]) rows := rfl
    obtain ⟨x, hx, he⟩ := h r List.mem_cons_self
    rw [unf, if_pos (c := t.any (fun x => key x == key r) = true) (List.any_eq_true.2 ⟨x, hx, beq_iff_eq.2 he⟩)]
    exact insertIgnore_noop key rows t (fun r hr => h r (List.mem_cons_of_mem _ hr))

theorem insertIgnore_again {κ : Type} [BEq κ] [LawfulBEq κ] (key : α → κ) (rows t : List α) : insertIgnore key (insertIgnore key t rows) rows = insertIgnore key t rows :=
  insertIgnore_noop key _ _ (fun r hr => insertIgnore_has key rows t r hr)

/-- `REPLACE` forgets the rows with the same keys. -/
theorem replaceInto_filter {κ : Type} [BEq κ] [LawfulBEq κ] (key : α → κ) : ∀ (rows t : List α),
    replaceInto key t rows = t.filter (fun x => !rows.any (fun r => key x == key r)) ++ replaceInto key [] rows
  | [], t => by simp [replaceInto]
  | r :: rows, t => by
    have unf : ∀ t, replaceInto key t (r :: rows) = replaceInto key (t.filter (fun x => !(key x == key r)) ++ [r]) rows := fun _ => rfl
    rw [unf, unf, replaceInto_filter key rows (_ ++ [r]), replaceInto_filter key rows (([] : List α).filter _ ++ [r]), ← List.append_assoc]
    congr 1
    simp only [List.filter_append, List.filter_filter, List.filter_nil, List.nil_append]
    congr 1
    apply List.filter_congr
    intro x _
    simp only [List.any_cons, Bool.not_or, Bool.and_comm]

theorem replaceInto_again {κ : Type} [BEq κ] [LawfulBEq κ] (key : α → κ) (rows t : List α) : replaceInto key (replaceInto key t rows) rows = replaceInto key t rows := by
  rw [replaceInto_filter key rows (replaceInto key t rows)]
  conv => rhs; rw [replaceInto_filter key rows t]
  congr 1
  rw [replaceInto_filter key rows t, List.filter_append, List.filter_filter]
  have : (replaceInto key [] rows).filter (fun x => !rows.any (fun r => key x == key r)) = [] := by
    rw [List.filter_eq_nil_iff]
    intro x hx
    rcases mem_replaceInto_sub key rows [] x hx with h | h
    · cases h
    · simp only [Bool.not_eq_true', Bool.not_eq_false]
      exact List.any_eq_true.2 ⟨x, h, beq_self_eq_true _⟩
  rw [this, List.append_nil]
  apply List.filter_congr
  intro x _
  rw [Bool.and_self]

/-! ## The statements -/

/-- The rows for the policies `sel`. -/
def polRows (H : Bytes → Bytes) (sel : List (Bytes × Bytes)) : List Cert := sel.map (fun p => ⟨H p.2, [], year3000, p.2⟩)

/-- The four statements for the policies `sel`. -/
def fourSteps (H : Bytes → Bytes) (sel : List (Bytes × Bytes)) : List (DB → DB) :=
  [fun db => { db with dirty := replaceInto Prod.fst db.dirty ((sel.map Prod.fst).map (fun n => (H n, false))) },
    fun db => { db with domains := insertIgnore Prod.fst db.domains ((sel.map Prod.fst).map (fun n => (H n, n))) },
    fun db => { db with policies := replaceInto Cert.id db.policies (polRows H sel) },
    fun db => { db with domainPolicies := insertIgnore id db.domainPolicies (sel.map (fun p => (H p.1, H p.2))) }]

theorem certRows_pol (H : Bytes → Bytes) : ∀ (sel : List (Bytes × Bytes)), certRows (sel.map (fun p => H p.2)) (List.replicate (sel.map (fun p => H p.2)).length none)
    (List.replicate (sel.map (fun p => H p.2)).length year3000) (sel.map Prod.snd) = some (polRows H sel)
  | [] => rfl
  | p :: sel => by
    have := certRows_pol H sel
    simp only [List.map_cons, List.length_cons, List.replicate_succ, certRows]
    rw [this]
    rfl

theorem steps_eq (H : Bytes → Bytes) (db : DB) (keep : Option Nat) (ps : List (Bytes × Bytes)) :
    policySteps H db keep ps = some (if select (policyMask H db keep ps) ps = [] then [] else fourSteps H (select (policyMask H db keep ps) ps)) := by
  unfold policySteps
  dsimp only
  generalize policyMask H db keep ps = m
  have e1 : ∀ {β : Type} (f : Bytes × Bytes → β), unmasked m (ps.map f) = (select m ps).map f := fun f => select_map m f ps
  rw [e1, e1, e1]
  generalize select m ps = sel
  unfold insertPolicySteps
  by_cases h0 : sel = []
  · subst h0
    rfl
  · rw [if_neg h0, if_neg (by simpa using h0), certRows_pol]
    have hz : ((sel.map Prod.fst).map H).zip (sel.map (fun p => H p.2)) = sel.map (fun p => (H p.1, H p.2)) := by
      clear h0
      induction sel with
      | nil => rfl
      | cons p l ih => simpa using ih
    dsimp only
    rw [hz]
    rfl

/-- The policies that are written: all but stored ones. -/
theorem selected (H : Bytes → Bytes) (db : DB) (keep : Option Nat) (ps : List (Bytes × Bytes)) {p : Bytes × Bytes} (hp : p ∈ ps)
    (h : keep = none ∨ ¬ HasPolicy db (H p.2)) : p ∈ select (policyMask H db keep ps) ps := by
  obtain ⟨j, hj, rfl⟩ := List.mem_iff_getElem.1 hp
  refine select_false_mem _ ps j _ ?_ (List.getElem?_eq_getElem hj)
  unfold policyMask
  cases keep with
  | none => simp [hj]
  | some maxLen =>
    dsimp only
    have hn : ¬ HasPolicy db (H ps[j].2) := h.resolve_left (by simp)
    obtain ⟨h1, h2⟩ := checkPolicies_true maxLen (fun i => db.policies.any (fun c => c.id == i)) (ps.map (fun p => H p.2))
    generalize checkPoliciesExist maxLen (fun i => db.policies.any (fun c => c.id == i)) (ps.map (fun p => H p.2)) = m at h1 h2
    rw [List.length_map] at h1
    have hjm : j < m.length := by omega
    rw [List.getElem?_eq_getElem hjm]
    cases hb : m[j] with
    | false => rfl
    | true =>
      have := h2 j (H ps[j].2) (by rw [List.getElem?_eq_getElem hjm, hb]) (by rw [List.getElem?_map, List.getElem?_eq_getElem hj]; rfl)
      obtain ⟨c, hc, he⟩ := List.any_eq_true.1 this
      exact absurd ⟨c, hc, eq_of_beq he⟩ hn

theorem selected_none (H : Bytes → Bytes) (db : DB) (maxLen : Nat) (ps : List (Bytes × Bytes)) (hl : ps.length ≤ maxLen) (h : ∀ p ∈ ps, HasPolicy db (H p.2)) :
    select (policyMask H db (some maxLen) ps) ps = [] := by
  unfold policyMask select
  dsimp only
  rw [C17_policies_partial maxLen _ _ (by simpa using hl), List.map_eq_nil_iff, List.filter_eq_nil_iff]
  intro x hx
  have := (List.of_mem_zip hx).1
  rw [List.map_map] at this
  obtain ⟨p, hp, he⟩ := List.mem_map.1 this
  obtain ⟨c, hc, hi⟩ := h p hp
  have : x.1 = true := by
    rw [← he]
    exact List.any_eq_true.2 ⟨c, hc, beq_iff_eq.2 hi⟩
  simp [this]

theorem mask_congr (H : Bytes → Bytes) {db db' : DB} (h : db'.policies = db.policies) (keep : Option Nat) (ps : List (Bytes × Bytes)) :
    policyMask H db' keep ps = policyMask H db keep ps := by
  unfold policyMask
  rw [h]

/-! ## C115 -/

/-- C115: submitting policies never fails (the DB willing). -/
theorem C115_no_panic (H : Bytes → Bytes) (db : DB) (keep : Option Nat) (ps : List (Bytes × Bytes)) : ∃ st, policySteps H db keep ps = some st :=
  ⟨_, steps_eq H db keep ps⟩

/-- C115: after a submission that is not interrupted, each policy that was not stored before is stored with its payload, belongs to its domain, and the payload of the domain is
recomputed in the next coalescing. With `UpdateWithOverwrite` (`keep = none`) this holds for all policies. -/
theorem C115_policies_arrive (H : Bytes → Bytes) (db : DB) (keep : Option Nat) (ps : List (Bytes × Bytes)) (hd : PayloadsDiffer H ps) (st : List (DB → DB))
    (hst : policySteps H db keep ps = some st) (p : Bytes × Bytes) (hp : p ∈ ps) (hnew : keep = none ∨ ¬ HasPolicy db (H p.2)) :
    PolicyStored H (runSteps st db) p.1 p.2 := by
  have hs := selected H db keep ps hp hnew
  rw [steps_eq, Option.some.injEq] at hst
  have hsub : ∀ q ∈ select (policyMask H db keep ps) ps, q ∈ ps := fun q hq => select_subset _ ps q hq
  generalize select (policyMask H db keep ps) ps = sel at hst hs hsub
  rw [if_neg (fun h0 => by rw [h0] at hs; cases hs)] at hst
  subst hst
  refine ⟨⟨⟨H p.2, [], year3000, p.2⟩, ?_, rfl, rfl⟩, ?_, ?_, ?_⟩
  · refine mem_replaceInto Cert.id _ _ _ (List.mem_map.2 ⟨p, hs, rfl⟩) ?_
    intro r hr he
    obtain ⟨q, hq, rfl⟩ := List.mem_map.1 hr
    have : H q.2 = H p.2 := he
    rw [hd q (hsub q hq) p hp this]
  · obtain ⟨x, hx, he⟩ := insertIgnore_has id (sel.map (fun p => (H p.1, H p.2))) db.domainPolicies (H p.1, H p.2) (List.mem_map.2 ⟨p, hs, rfl⟩)
    have : x = (H p.1, H p.2) := he
    rw [← this]
    exact hx
  · obtain ⟨x, hx, he⟩ := insertIgnore_has Prod.fst ((sel.map Prod.fst).map (fun n => (H n, n))) db.domains (H p.1, p.1)
      (List.mem_map.2 ⟨p.1, List.mem_map.2 ⟨p, hs, rfl⟩, rfl⟩)
    refine ⟨x.2, ?_⟩
    have : x.1 = H p.1 := he
    rw [← this]
    exact hx
  · refine mem_replaceInto Prod.fst _ _ _ (List.mem_map.2 ⟨p.1, List.mem_map.2 ⟨p, hs, rfl⟩, rfl⟩) ?_
    intro r hr he
    obtain ⟨n, _, rfl⟩ := List.mem_map.1 hr
    have : H n = H p.1 := he
    rw [this]

/-- What a submission of policies leaves alone. -/
structure PolicyFrame (H : Bytes → Bytes) (ps : List (Bytes × Bytes)) (db db' : DB) : Prop where
  certs : db'.certs = db.certs
  domainCerts : db'.domainCerts = db.domainCerts
  payloads : db'.payloads = db.payloads
  links : ∀ l ∈ db.domainPolicies, l ∈ db'.domainPolicies
  domains : ∀ d ∈ db.domains, d ∈ db'.domains
  waiting : ∀ d, (d, false) ∈ db.dirty → (d, false) ∈ db'.dirty
  others : ∀ c ∈ db.policies, (∀ p ∈ ps, H p.2 ≠ c.id) → c ∈ db'.policies
  stored : ∀ i, HasPolicy db i → HasPolicy db' i
  own : ∀ c ∈ db'.policies, c ∈ db.policies ∨ ∃ p ∈ ps, c.id = H p.2 ∧ c.payload = p.2
  ownLinks : ∀ d i, (d, i) ∈ db'.domainPolicies → (d, i) ∈ db.domainPolicies ∨ ∃ p ∈ ps, d = H p.1 ∧ i = H p.2
  marked : ∀ d b, (d, b) ∈ db'.dirty → (d, b) ∈ db.dirty ∨ (b = false ∧ ∃ p ∈ ps, d = H p.1)

theorem PolicyFrame.refl (H : Bytes → Bytes) (ps : List (Bytes × Bytes)) (db : DB) : PolicyFrame H ps db db :=
  ⟨rfl, rfl, rfl, fun _ h => h, fun _ h => h, fun _ h => h, fun _ h _ => h, fun _ h => h, fun _ h => Or.inl h, fun _ _ h => Or.inl h, fun _ _ h => Or.inl h⟩

/-- C115: wherever the submission stops (after `k` statements), certificates and payloads are as before, no policy, link, name or mark is lost, and only submitted policies are added, each
with its own payload and for its own domain. -/
theorem C115_nothing_else_changes (H : Bytes → Bytes) (db : DB) (keep : Option Nat) (ps : List (Bytes × Bytes)) (st : List (DB → DB))
    (hst : policySteps H db keep ps = some st) (k : Nat) : PolicyFrame H ps db (runSteps (st.take k) db) := by
  rw [steps_eq, Option.some.injEq] at hst
  have hsub : ∀ q ∈ select (policyMask H db keep ps) ps, q ∈ ps := fun q hq => select_subset _ ps q hq
  generalize select (policyMask H db keep ps) ps = sel at hst hsub
  by_cases h0 : sel = []
  · rw [if_pos h0] at hst
    subst hst
    rw [List.take_nil]
    exact .refl H ps db
  · rw [if_neg h0] at hst
    subst hst
    have hdom : ∀ d ∈ db.domains, d ∈ insertIgnore Prod.fst db.domains ((sel.map Prod.fst).map (fun n => (H n, n))) := by
      intro d hd
      obtain ⟨new, h2, _⟩ := insertIgnore_prefix Prod.fst ((sel.map Prod.fst).map (fun n => (H n, n))) db.domains
      rw [h2]
      exact List.mem_append_left _ hd
    have hlk : ∀ l ∈ db.domainPolicies, l ∈ insertIgnore id db.domainPolicies (sel.map (fun p => (H p.1, H p.2))) := by
      intro d hd
      obtain ⟨new, h2, _⟩ := insertIgnore_prefix id (sel.map (fun p => (H p.1, H p.2))) db.domainPolicies
      rw [h2]
      exact List.mem_append_left _ hd
    have hw : ∀ d, (d, false) ∈ db.dirty → (d, false) ∈ replaceInto Prod.fst db.dirty ((sel.map Prod.fst).map (fun n => (H n, false))) := by
      intro d hd
      rw [mem_replaceInto_iff Prod.fst]
      · by_cases hm : ∃ n ∈ sel.map Prod.fst, H n = d
        · obtain ⟨n, hn, rfl⟩ := hm
          exact Or.inl (List.mem_map.2 ⟨n, hn, rfl⟩)
        · refine Or.inr ⟨hd, fun x hx he => hm ?_⟩
          obtain ⟨n, hn, rfl⟩ := List.mem_map.1 hx
          exact ⟨n, hn, he⟩
      · intro a ha b hb he
        obtain ⟨n, hn, rfl⟩ := List.mem_map.1 ha
        obtain ⟨n', hn', rfl⟩ := List.mem_map.1 hb
        have : H n = H n' := he
        rw [this]
    have hoth : ∀ (rows t : List Cert) (c : Cert), c ∈ t → (∀ r ∈ rows, r.id ≠ c.id) → c ∈ replaceInto Cert.id t rows := by
      intro rows
      induction rows with
      | nil => intro t c hc _; exact hc
      | cons r rows ih =>
        intro t c hc hn
        have unf : replaceInto Cert.id t (r :: rows) = replaceInto Cert.id (t.filter (fun x => !(x.id == r.id)) ++ [r]) rows := rfl
        rw [unf]
        refine ih _ c (List.mem_append_left _ (List.mem_filter.2 ⟨hc, ?_⟩)) (fun r hr => hn r (List.mem_cons_of_mem _ hr))
        have := hn r List.mem_cons_self
        simp only [Bool.not_eq_true', beq_eq_false_iff_ne]
        exact fun e => this e.symm
    have hot : ∀ c ∈ db.policies, (∀ p ∈ ps, H p.2 ≠ c.id) → c ∈ replaceInto Cert.id db.policies (polRows H sel) := by
      intro c hc hn
      refine hoth _ _ c hc (fun r hr => ?_)
      obtain ⟨p, hp, rfl⟩ := List.mem_map.1 hr
      exact hn p (hsub p hp)
    have hst' : ∀ i, HasPolicy db i → ∃ c ∈ replaceInto Cert.id db.policies (polRows H sel), c.id = i := by
      intro i hi
      rw [replaceInto_keys]
      exact Or.inl hi
    have hown : ∀ c ∈ replaceInto Cert.id db.policies (polRows H sel), c ∈ db.policies ∨ ∃ p ∈ ps, c.id = H p.2 ∧ c.payload = p.2 := by
      intro c hc
      rcases mem_replaceInto_sub Cert.id _ _ c hc with h | h
      · exact Or.inl h
      · obtain ⟨p, hp, rfl⟩ := List.mem_map.1 h
        exact Or.inr ⟨p, hsub p hp, rfl, rfl⟩
    have hol : ∀ d i, (d, i) ∈ insertIgnore id db.domainPolicies (sel.map (fun p => (H p.1, H p.2))) → (d, i) ∈ db.domainPolicies ∨ ∃ p ∈ ps, d = H p.1 ∧ i = H p.2 := by
      intro d i h
      rcases mem_insertIgnore id _ _ _ h with h | ⟨h, _⟩
      · exact Or.inl h
      · obtain ⟨p, hp, he⟩ := List.mem_map.1 h
        cases he
        exact Or.inr ⟨p, hsub p hp, rfl, rfl⟩
    have hmk : ∀ d b, (d, b) ∈ replaceInto Prod.fst db.dirty ((sel.map Prod.fst).map (fun n => (H n, false))) → (d, b) ∈ db.dirty ∨ (b = false ∧ ∃ p ∈ ps, d = H p.1) := by
      intro d b h
      rcases mem_replaceInto_sub Prod.fst _ _ _ h with h | h
      · exact Or.inl h
      · obtain ⟨n, hn, he⟩ := List.mem_map.1 h
        obtain ⟨p, hp, rfl⟩ := List.mem_map.1 hn
        cases he
        exact Or.inr ⟨rfl, p, hsub p hp, rfl⟩
    match k with
    | 0 => exact .refl H ps db
    | 1 => exact ⟨rfl, rfl, rfl, fun _ h => h, fun _ h => h, hw, fun _ h _ => h, fun _ h => h, fun _ h => Or.inl h, fun _ _ h => Or.inl h, hmk⟩
    | 2 => exact ⟨rfl, rfl, rfl, fun _ h => h, hdom, hw, fun _ h _ => h, fun _ h => h, fun _ h => Or.inl h, fun _ _ h => Or.inl h, hmk⟩
    | 3 => exact ⟨rfl, rfl, rfl, fun _ h => h, hdom, hw, hot, hst', hown, fun _ _ h => Or.inl h, hmk⟩
    | k + 4 =>
      have : (fourSteps H sel).take (k + 4) = fourSteps H sel := by simp [fourSteps]
      rw [this]
      exact ⟨rfl, rfl, rfl, hlk, hdom, hw, hot, hst', hown, hol, hmk⟩

/-- C115: `UpdateWithKeepExisting` of policies that are all stored sends nothing to the DB. (`maxLen`: the limit of GROUP_CONCAT.) -/
theorem C115_stored_skipped (H : Bytes → Bytes) (db : DB) (maxLen : Nat) (ps : List (Bytes × Bytes)) (hl : ps.length ≤ maxLen) (h : ∀ p ∈ ps, HasPolicy db (H p.2)) :
    policySteps H db (some maxLen) ps = some [] := by
  rw [steps_eq, if_pos (selected_none H db maxLen ps hl h)]

/-- C115: submitting the same policies a second time changes nothing. -/
theorem C115_twice (H : Bytes → Bytes) (db : DB) (keep : Option Nat) (maxLen : Nat) (ps : List (Bytes × Bytes)) (hl : ps.length ≤ maxLen) (hd : PayloadsDiffer H ps) (st : List (DB → DB))
    (hst : policySteps H db keep ps = some st) : policySteps H (runSteps st db) (some maxLen) ps = some [] := by
  refine C115_stored_skipped H _ maxLen ps hl (fun p hp => ?_)
  by_cases h : keep = none ∨ ¬ HasPolicy db (H p.2)
  · obtain ⟨c, hc, he, _⟩ := (C115_policies_arrive H db keep ps hd st hst p hp h).row
    exact ⟨c, hc, he⟩
  · have := (C115_nothing_else_changes H db keep ps st hst st.length).stored (H p.2) (Classical.not_not.1 (fun hn => h (Or.inr hn)))
    rwa [List.take_length] at this

/-- C115 (partial: the submission stops before the third of its four statements): submitting the policies again gives the same tables as an undisturbed submission. -/
theorem C115_interrupted_early_partial (H : Bytes → Bytes) (db : DB) (keep : Option Nat) (ps : List (Bytes × Bytes)) (st : List (DB → DB)) (hst : policySteps H db keep ps = some st)
    (k : Nat) (hk : k ≤ 2) : ∃ st', policySteps H (runSteps (st.take k) db) keep ps = some st' ∧ runSteps st' (runSteps (st.take k) db) = runSteps st db := by
  have key : ∀ db', db'.policies = db.policies → policySteps H db' keep ps = some st := by
    intro db' h
    rw [steps_eq, mask_congr H h, ← steps_eq, hst]
  rw [steps_eq, Option.some.injEq] at hst
  generalize select (policyMask H db keep ps) ps = sel at hst
  by_cases h0 : sel = []
  · rw [if_pos h0] at hst
    subst hst
    rw [List.take_nil]
    exact ⟨[], key db rfl, rfl⟩
  · rw [if_neg h0] at hst
    subst hst
    obtain rfl | rfl | rfl : k = 0 ∨ k = 1 ∨ k = 2 := by omega
    · exact ⟨_, key db rfl, rfl⟩
    · refine ⟨_, key _ rfl, ?_⟩
      simp only [fourSteps, runSteps, List.foldl, List.take, replaceInto_again]
    · refine ⟨_, key _ rfl, ?_⟩
      simp only [fourSteps, runSteps, List.foldl, List.take, replaceInto_again, insertIgnore_again]

/-- C115 (partial: submitted again with `UpdateWithOverwrite`): wherever the first submission stopped, and whatever happened since, all policies arrive. -/
theorem C115_overwrite_recovers_partial (H : Bytes → Bytes) (ps : List (Bytes × Bytes)) (hd : PayloadsDiffer H ps) (db' : DB) :
    ∃ st', policySteps H db' none ps = some st' ∧ ∀ p ∈ ps, PolicyStored H (runSteps st' db') p.1 p.2 :=
  ⟨_, steps_eq H db' none ps, fun p hp => C115_policies_arrive H db' none ps hd _ (steps_eq H db' none ps) p hp (Or.inl rfl)⟩

/-- C115 is violated: if a submission stops after its third statement, the policies are stored, but not linked to their domains; and submitting them again with
`UpdateWithKeepExisting` sends nothing to the DB. Then they never belong to their domains. -/
theorem C115_interrupted_violated (H : Bytes → Bytes) (db : DB) (keep : Option Nat) (maxLen : Nat) (ps : List (Bytes × Bytes)) (hl : ps.length ≤ maxLen) (hd : PayloadsDiffer H ps)
    (st : List (DB → DB)) (hst : policySteps H db keep ps = some st) :
    policySteps H (runSteps (st.take 3) db) (some maxLen) ps = some [] ∧ (runSteps (st.take 3) db).domainPolicies = db.domainPolicies := by
  have hp := C115_nothing_else_changes H db keep ps st hst 3
  have h4 := fun p hp => (C115_policies_arrive H db keep ps hd st hst p hp)
  constructor
  · refine C115_stored_skipped H _ maxLen ps hl (fun p hpm => ?_)
    by_cases h : keep = none ∨ ¬ HasPolicy db (H p.2)
    · obtain ⟨c, hc, he, _⟩ := (h4 p hpm h).row
      refine ⟨c, ?_, he⟩
      rw [steps_eq, Option.some.injEq] at hst
      subst hst
      split at hc
      · rename_i h0; rw [if_pos h0]; exact hc
      · rename_i h0; rw [if_neg h0]; exact hc
    · exact hp.stored (H p.2) (Classical.not_not.1 (fun hn => h (Or.inr hn)))
  · rw [steps_eq, Option.some.injEq] at hst
    subst hst
    split
    · rfl
    · rfl

/-- Two policies of one domain, and one of another; the DB has a certificate and the first of the policies. -/
def exPols : List (Bytes × Bytes) := [([1], [10]), ([1], [11]), ([2], [12])]
def exPolDB : DB := ⟨[⟨[7], [], 90, [7]⟩], [([1], [1])], [([1], [7])], [⟨[10], [], year3000, [10]⟩], [([1], [10])], [], []⟩

/-- The hypotheses of C115 hold, with one policy stored before; the two others arrive. -/
example : PayloadsDiffer id exPols ∧ exPols.length ≤ 1024 ∧ HasPolicy exPolDB [10] ∧ ¬ HasPolicy exPolDB [12] ∧
    (policySteps id exPolDB (some 1024) exPols).map (fun st => runSteps st exPolDB) = some ⟨exPolDB.certs, [([1], [1]), ([2], [2])], exPolDB.domainCerts,
      [⟨[10], [], year3000, [10]⟩, ⟨[11], [], year3000, [11]⟩, ⟨[12], [], year3000, [12]⟩], [([1], [10]), ([1], [11]), ([2], [12])], [], [([1], false), ([2], false)]⟩ := by
  refine ⟨?_, by decide, ⟨_, List.mem_singleton.2 rfl, rfl⟩, ?_, by decide +kernel⟩
  · intro p _ q _ h
    exact h
  · rintro ⟨c, hc, he⟩
    rw [List.mem_singleton.1 hc] at he
    cases he

/-- The violation is real: the second policy is never linked. -/
example : ∃ st, policySteps id exPolDB (some 1024) exPols = some st ∧ HasPolicy (runSteps (st.take 3) exPolDB) [11] ∧ ([1], [11]) ∉ (runSteps (st.take 3) exPolDB).domainPolicies := by
  refine ⟨_, steps_eq _ _ _ _, ?_⟩
  rw [if_neg (by decide +kernel)]
  exact ⟨⟨⟨[11], [], year3000, [11]⟩, by decide +kernel, rfl⟩, by decide +kernel⟩

/-! ## Policies never leave -/

/-- Parts of updates, one after another. -/
def Later (H : Bytes → Bytes) : Sys → Sys → Prop := Relation.ReflTransGen (fun s s' => ∃ op, Step H s op s')

theorem step_policies_kept {H : Bytes → Bytes} {s s' : Sys} {op : Op} (h : Step H s op s') :
    (∀ i, HasPolicy s.db i → HasPolicy s'.db i) ∧ ∀ l ∈ s.db.domainPolicies, l ∈ s'.db.domainPolicies := by
  have same : ∀ db', db'.policies = s.db.policies → db'.domainPolicies = s.db.domainPolicies →
      (∀ i, HasPolicy s.db i → HasPolicy db' i) ∧ ∀ l ∈ s.db.domainPolicies, l ∈ db'.domainPolicies := by
    intro db' h1 h2
    unfold HasPolicy
    rw [h1, h2]
    exact ⟨fun _ h => h, fun _ h => h⟩
  cases h with
  | certs leaves chains k st hl hst =>
    unfold certSteps keepExistingSteps at hst
    dsimp only at hst
    rcases insertSteps_cases hst with ⟨_, rfl⟩ | ⟨rows, _, rfl⟩
    · rw [List.take_nil]
      exact same _ rfl rfl
    · match k with
      | 0 => exact same _ rfl rfl
      | 1 => exact same _ rfl rfl
      | 2 => exact same _ rfl rfl
      | 3 => exact same _ rfl rfl
      | k + 4 =>
        have : ∀ (a b c d : DB → DB), [a, b, c, d].take (k + 4) = [a, b, c, d] := by intros; simp
        rw [this]
        exact same _ rfl rfl
  | policies keep ps k st hst =>
    have := C115_nothing_else_changes H s.db keep ps st hst k
    exact ⟨this.stored, this.links⟩
  | prune cut fuel db' hp =>
    unfold pruneCerts at hp
    dsimp only at hp
    split at hp
    · cases hp
    · cases hp
      exact same _ rfl rfl
  | pruneCut cut fuel db' hp => exact same _ rfl rfl
  | coalesce p fuel chunk n db' _ _ _ hc =>
    unfold calcDirtyDomains at hc
    dsimp only at hc
    split at hc
    · cases hc
      exact same _ rfl rfl
    · split at hc
      · cases hc
      · cases hc
        exact same _ rfl rfl
  | smt max t' _ _ _ => exact same _ rfl rfl
  | finish max t' _ _ _ => exact same _ rfl rfl
  | reload => exact same _ rfl rfl

/-- C115: no part of an update removes a policy or unlinks it from its domain: neither pruning, for any time, nor coalescing, nor a later submission, interrupted or not. (So an expired
policy stays: policies are stored with an expiration in the year 3000 and only certificates are pruned.) -/
theorem C115_never_removed (H : Bytes → Bytes) (s s' : Sys) (hlater : Later H s s') :
    (∀ i, HasPolicy s.db i → HasPolicy s'.db i) ∧ ∀ l ∈ s.db.domainPolicies, l ∈ s'.db.domainPolicies := by
  unfold Later at hlater
  induction hlater with
  | refl => exact ⟨fun _ h => h, fun _ h => h⟩
  | tail _ hs ih =>
    obtain ⟨op, hs⟩ := hs
    have := step_policies_kept hs
    exact ⟨fun i h => this.1 i (ih.1 i h), fun l h => this.2 l (ih.2 l h)⟩

/-- Pruning with a time after the year 3000: the certificate goes, the policy stays. -/
example : ∃ s', Later id ⟨exPolDB, .empty, .empty⟩ s' ∧ s'.db.certs = [] ∧ HasPolicy s'.db [10] := by
  refine ⟨⟨⟨[], [([1], [1])], [([1], [7])], [⟨[10], [], year3000, [10]⟩], [([1], [10])], [], [([1], false)]⟩, .empty, .empty⟩, ?_, rfl, ⟨_, List.mem_singleton.2 rfl, rfl⟩⟩
  exact .single ⟨.prune (2 * year3000), .prune (2 * year3000) 5 _ (by decide +kernel)⟩

end Fpki.E2E
