import Verif.Props.DbSql

/-!
# C21 and C70 over histories: whatever was inserted, pruned, coalesced or interrupted, the payload of a domain that is not waiting matches its
certificates and policies
-/
namespace Fpki.Db

/-! ## Pruning without the assumption on cycles -/

theorem expiredLoop_sound (certs : List Cert) (P : Bytes → Prop) (hP : ∀ c ∈ certs, P c.parent → P c.id) : ∀ (fuel : Nat) (res work out : List Bytes),
    expiredLoop certs fuel res work = some out → (∀ i ∈ res, P i) → (∀ w ∈ work, w ∈ res) →
    (∀ c ∈ certs, c.parent ∈ res → c.parent ∈ work ∨ c.id ∈ res) →
    (∀ i ∈ out, P i) ∧ (∀ i ∈ res, i ∈ out) ∧ (∀ c ∈ certs, c.parent ∈ out → c.id ∈ out) := by
  intro fuel
  induction fuel with
  | zero => intro res work out h; cases h
  | succ fuel ih =>
    intro res work out h hres hw hcl
    unfold expiredLoop at h
    dsimp only at h
    by_cases hn : work.flatMap (fun w => (certs.filter (fun c => c.parent == w)).map Cert.id) = []
    · rw [if_pos hn] at h
      cases h
      refine ⟨hres, fun i h => h, fun c hc hp => ?_⟩
      rcases hcl c hc hp with h | h
      · have := (mem_children certs work c.id).2 ⟨c, hc, h, rfl⟩
        rw [hn] at this
        cases this
      · exact h
    · rw [if_neg hn] at h
      obtain ⟨hp, hsub, hcl'⟩ := ih _ _ out h (by
          intro j hj
          rcases List.mem_append.1 hj with hj | hj
          · exact hres j hj
          · obtain ⟨c', hc', hcw', rfl⟩ := (mem_children certs work j).1 hj
            exact hP c' hc' (hres _ (hw _ hcw'))) (fun w hw' => List.mem_append_right _ hw') (by
          intro c' hc' hp'
          rcases List.mem_append.1 hp' with hp' | hp'
          · rcases hcl c' hc' hp' with h | h
            · exact Or.inr (List.mem_append_right _ ((mem_children certs work c'.id).2 ⟨c', hc', h, rfl⟩))
            · exact Or.inr (List.mem_append_left _ h)
          · exact Or.inl hp')
      exact ⟨hp, fun j hj => hsub j (List.mem_append_left _ hj), hcl'⟩

/-- C21: whenever pruning ends without an error, cycles or not, it has removed exactly the certificates expired before `cut` and those
that chain to one, and the domains linked to one of them are dirty. -/
theorem C21_prune_result (fuel : Nat) (db db' : DB) (cut : Nat) (h : pruneCerts fuel db cut = some db') :
    db'.certs.Sublist db.certs ∧ (∀ c, c ∈ db'.certs ↔ c ∈ db.certs ∧ ¬ InExpired db.certs cut c.id) ∧
    (∀ r, r ∈ db'.dirty ↔ (LosesCert db cut r.1 ∧ r.2 = false) ∨ (r ∈ db.dirty ∧ ¬ LosesCert db cut r.1)) ∧
    db'.domains = db.domains ∧ db'.domainCerts = db.domainCerts ∧ db'.policies = db.policies ∧ db'.domainPolicies = db.domainPolicies ∧
    db'.payloads = db.payloads := by
  unfold pruneCerts at h
  dsimp only at h
  cases hloop : expiredLoop db.certs fuel ((db.certs.filter (fun c => decide (c.expiration < cut))).map Cert.id)
      ((db.certs.filter (fun c => decide (c.expiration < cut))).map Cert.id) with
  | none => rw [hloop] at h; cases h
  | some ids =>
    rw [hloop] at h
    cases h
    obtain ⟨s1, s2, s3⟩ := expiredLoop_sound db.certs (InExpired db.certs cut) (fun c hc h => InExpired.child c hc h) fuel _ _ ids hloop (by
      intro i hi
      obtain ⟨c, hc, rfl⟩ := List.mem_map.1 hi
      obtain ⟨h5, h6⟩ := List.mem_filter.1 hc
      exact InExpired.expired c h5 (by simpa using h6)) (fun w h => h) (fun c _ h => Or.inl h)
    have h2 : ∀ i, i ∈ ids ↔ InExpired db.certs cut i := by
      refine fun i => ⟨s1 i, fun h => ?_⟩
      induction h with
      | expired c hc he => exact s2 _ (List.mem_map.2 ⟨c, List.mem_filter.2 ⟨hc, by simpa using he⟩, rfl⟩)
      | child c hc _ ih => exact s3 c hc ih
    refine ⟨List.filter_sublist, ?_, ?_, rfl, rfl, rfl, rfl, rfl⟩
    · intro c
      simp only [List.mem_filter, Bool.not_eq_true', List.contains_eq_mem, decide_eq_false_iff_not, h2]
    · have hl : ∀ d, d ∈ ((db.domainCerts.filter (fun l => ids.contains l.2)).map Prod.fst).eraseDups ↔ LosesCert db cut d := by
        intro d
        rw [List.mem_eraseDups, List.mem_map]
        constructor
        · rintro ⟨⟨d', i⟩, h, rfl⟩
          obtain ⟨h3, h4⟩ := List.mem_filter.1 h
          exact ⟨i, h3, (h2 i).1 (by simpa using h4)⟩
        · rintro ⟨i, h3, h4⟩
          exact ⟨(d, i), List.mem_filter.2 ⟨h3, by simpa using (h2 i).2 h4⟩, rfl⟩
      intro r
      dsimp only
      rw [mem_replaceInto_iff Prod.fst]
      · rw [List.mem_map]
        constructor
        · rintro (⟨d, hd, rfl⟩ | ⟨h3, h4⟩)
          · exact Or.inl ⟨(hl d).1 hd, rfl⟩
          · refine Or.inr ⟨h3, fun h => ?_⟩
            exact h4 (r.1, false) (List.mem_map.2 ⟨r.1, (hl r.1).2 h, rfl⟩) rfl
        · rintro (⟨h3, h4⟩ | ⟨h3, h4⟩)
          · exact Or.inl ⟨r.1, (hl _).2 h3, by rw [← h4]⟩
          · refine Or.inr ⟨h3, fun x hx e => h4 ?_⟩
            obtain ⟨d, hd, rfl⟩ := List.mem_map.1 hx
            rw [← e]
            exact (hl d).1 hd
      · intro a ha b hb e
        obtain ⟨d, _, rfl⟩ := List.mem_map.1 ha
        obtain ⟨d', _, rfl⟩ := List.mem_map.1 hb
        have : d = d' := e
        rw [this]

/-! ## Keys -/

theorem replaceInto_nodup {κ : Type} [BEq κ] [LawfulBEq κ] (key : α → κ) : ∀ (rows t : List α), (t.map key).Nodup → ((replaceInto key t rows).map key).Nodup
  | [], t, h => h
  | r :: rows, t, h => by
    have unf : replaceInto key t (r :: rows) = replaceInto key (t.filter (fun x => !(key x == key r)) ++ [r]) rows := rfl
    rw [unf]
    apply replaceInto_nodup key rows
    rw [List.map_append, List.nodup_append]
    refine ⟨(List.Sublist.map key List.filter_sublist).nodup h, by simp, ?_⟩
    intro a ha b hb
    obtain ⟨y, hy, rfl⟩ := List.mem_map.1 ha
    simp only [List.map_cons, List.map_nil, List.mem_singleton] at hb
    subst hb
    have := (List.mem_filter.1 hy).2
    simpa using this

/-! ## C70 -/

/-- A certificate of the batch that is new to the DB: nothing stored refers to it, except links of domains the batch marks
as dirty. -/
def Fresh (H : Bytes → Bytes) (db : DB) (names : List (List Bytes)) (ids : List Bytes) : Prop :=
  ∀ i ∈ ids, ¬ Stored db i → (∀ c ∈ db.certs, c.parent ≠ i) ∧
    ∀ d, (d, i) ∈ db.domainCerts → ∃ ns, (ns, i) ∈ names.zip ids ∧ ∃ n ∈ ns, H n = d

/-- The same without the exception. -/
def NeverSeen (db : DB) (ids : List Bytes) : Prop :=
  ∀ i ∈ ids, ¬ Stored db i → (∀ c ∈ db.certs, c.parent ≠ i) ∧ ∀ d, (d, i) ∉ db.domainCerts

/-- The contents of the DB after any history of updates of certificates (in full, or interrupted after any number of statements) and policies, prunings (in full, or
interrupted after the dirty domains are marked), coalescings,
and cleanings of the dirty table when nothing is waiting. -/
inductive Hist (H : Bytes → Bytes) : DB → Prop where
  | empty : Hist H emptyDB
  | keep (db db' : DB) (b : Batch) : Hist H db → b.Aligned → Fresh H db b.names b.ids →
      updateWithKeepExisting H db b.names b.ids b.parents b.raws b.exps = some db' → Hist H db'
  | overwrite (db db' : DB) (b : Batch) : Hist H db → b.Aligned → Fresh H db b.names b.ids →
      updateWithOverwrite H db b.names b.ids b.parents b.raws b.exps = some db' → Hist H db'
  | crash (db : DB) (b : Batch) (st : List (DB → DB)) (k : Nat) : Hist H db → b.Aligned → NeverSeen db b.ids →
      keepExistingSteps H db b.names b.ids b.parents b.raws b.exps = some st → Hist H (runSteps (st.take k) db)
  | policies (db : DB) (subjects ids payloads : List Bytes) (st : List (DB → DB)) (k : Nat) : Hist H db → (∀ i ∈ ids, i ≠ []) →
      subjects.length = ids.length → insertPolicySteps H subjects ids payloads = some st → Hist H (runSteps (st.take k) db)
  | prune (db db' : DB) (fuel cut : Nat) : Hist H db → pruneCerts fuel db cut = some db' → Hist H db'
  | pruneCut (db db' : DB) (fuel cut : Nat) : Hist H db → pruneCerts fuel db cut = some db' → Hist H { db with dirty := db'.dirty }
  | coalesce (db db' : DB) (fuel chunk n : Nat) : Hist H db → db.certs.length < fuel → db.policies.length < fuel → 0 < chunk → db.dirty.length < n →
      recomputeDirty fuel chunk n db = some db' → Hist H db'
  | cleanup (db : DB) : Hist H db → (∀ d, (d, false) ∉ db.dirty) → Hist H (cleanupDirty db)

theorem InClosure.mem {certs : List Cert} {links : List (Bytes × Bytes)} {d : Bytes} {c : Cert} (h : InClosure certs links d c) : c ∈ certs := by
  cases h with
  | link _ h _ => exact h
  | parent _ _ _ h _ => exact h

theorem mem_insertIgnore {κ : Type} [BEq κ] [LawfulBEq κ] (key : α → κ) (rows t : List α) (x : α) (h : x ∈ insertIgnore key t rows) :
    x ∈ t ∨ (x ∈ rows ∧ ∀ y ∈ t, key y ≠ key x) := by
  by_cases hx : x ∈ t
  · exact Or.inl hx
  · right
    refine ⟨?_, insertIgnore_new key rows t x h hx⟩
    obtain ⟨new, h1, h2⟩ := insertIgnore_prefix key rows t
    rw [h1] at h
    rcases List.mem_append.1 h with h | h
    · exact absurd h hx
    · exact h2 x h

theorem closure_insert {certs rows : List Cert} {links links' : List (Bytes × Bytes)} {d : Bytes}
    (hf : ∀ c ∈ rows, (∀ y ∈ certs, y.id ≠ c.id) → (∀ y ∈ certs, y.parent ≠ c.id) ∧ (d, c.id) ∉ links)
    (hl : ∀ i, (d, i) ∈ links' ↔ (d, i) ∈ links) (c : Cert) :
    InClosure (insertIgnore Cert.id certs rows) links' d c ↔ InClosure certs links d c := by
  constructor
  · intro h
    induction h with
    | link c hc hlk =>
      rw [hl] at hlk
      rcases mem_insertIgnore Cert.id rows certs c hc with h | ⟨h1, h2⟩
      · exact .link c h hlk
      · exact absurd hlk (hf c h1 h2).2
    | parent c p _ hp he ih =>
      rcases mem_insertIgnore Cert.id rows certs p hp with h | ⟨h1, h2⟩
      · exact .parent c p ih h he
      · exact absurd he.symm ((hf p h1 h2).1 c ih.mem)
  · intro h
    obtain ⟨new, h1, _⟩ := insertIgnore_prefix Cert.id rows certs
    induction h with
    | link c hc hlk => exact .link c (by rw [h1]; exact List.mem_append_left _ hc) ((hl _).2 hlk)
    | parent c p _ hp he ih => exact .parent c p ih (by rw [h1]; exact List.mem_append_left _ hp) he

/-- What holds after every history. -/
structure Inv (db : DB) : Prop where
  keys : Keys db
  pol : ∀ c ∈ db.policies, c.parent = [] ∧ c.id ≠ []
  plinks : ∀ d i, (d, i) ∈ db.domainPolicies → ∃ c ∈ db.policies, c.id = i
  cons : ∀ r : Payload, (r.domain, false) ∉ db.dirty → (r ∈ db.payloads ↔ GoodRow db r)

/-- The IDs in the closure of a domain. -/
def ClosureIds (certs : List Cert) (links : List (Bytes × Bytes)) (d i : Bytes) : Prop := ∃ c, InClosure certs links d c ∧ c.id = i

theorem isAgg_congr {certs certs' : List Cert} {links links' : List (Bytes × Bytes)} {d : Bytes}
    (h : ∀ i, ClosureIds certs links d i ↔ ClosureIds certs' links' d i) (v : Option Bytes) : IsAgg certs links d v ↔ IsAgg certs' links' d v := by
  unfold IsAgg
  constructor
  · rintro ⟨ids, h1, h2, h3⟩
    exact ⟨ids, h1, fun i => (h2 i).trans (h i), h3⟩
  · rintro ⟨ids, h1, h2, h3⟩
    exact ⟨ids, h1, fun i => (h2 i).trans (h i).symm, h3⟩

theorem cons_of {db db' : DB} (hc : ∀ r : Payload, (r.domain, false) ∉ db.dirty → (r ∈ db.payloads ↔ GoodRow db r)) (hp : db'.payloads = db.payloads)
    (h : ∀ d, (d, false) ∉ db'.dirty → (d, false) ∉ db.dirty ∧
      (∀ i, ClosureIds db.certs db.domainCerts d i ↔ ClosureIds db'.certs db'.domainCerts d i) ∧
      (∀ i, ClosureIds db.policies db.domainPolicies d i ↔ ClosureIds db'.policies db'.domainPolicies d i)) :
    ∀ r : Payload, (r.domain, false) ∉ db'.dirty → (r ∈ db'.payloads ↔ GoodRow db' r) := by
  intro r hr
  obtain ⟨h1, h2, h3⟩ := h r.domain hr
  rw [hp, hc r h1]
  unfold GoodRow IsPayload
  rw [isAgg_congr h2, isAgg_congr h3]

/-- The domains a batch marks. -/
def Marks (H : Bytes → Bytes) (names : List (List Bytes)) (ids : List Bytes) (d : Bytes) : Prop := ∃ n i, (d, n, i) ∈ nameRows H names ids

theorem certRows_mem_id : ∀ (ids : List Bytes) (ps : List (Option Bytes)) (es : List Nat) (pls : List Bytes) (rows : List Cert),
    certRows ids ps es pls = some rows → ∀ c ∈ rows, c.id ∈ ids := by
  intro ids ps es pls rows h c hc
  obtain ⟨hl, hg⟩ := certRows_getElem _ _ _ _ _ h
  obtain ⟨k, hk, rfl⟩ := List.mem_iff_getElem.1 hc
  have := (hg k rows[k] (List.getElem?_eq_getElem hk)).1
  exact List.mem_of_getElem? this

theorem mem_dirty_marks {H : Bytes → Bytes} {names : List (List Bytes)} {ids : List Bytes} {t : List (Bytes × Bool)} (d : Bytes) :
    (d, false) ∈ replaceInto Prod.fst t ((nameRows H names ids).map (fun r => (r.1, false))) ↔ Marks H names ids d ∨ (d, false) ∈ t := by
  rw [mem_replaceInto_iff Prod.fst]
  · constructor
    · rintro (h | ⟨h, _⟩)
      · obtain ⟨⟨d', n, i⟩, hr, he⟩ := List.mem_map.1 h
        cases he
        exact Or.inl ⟨n, i, hr⟩
      · exact Or.inr h
    · rintro (⟨n, i, h⟩ | h)
      · exact Or.inl (List.mem_map.2 ⟨_, h, rfl⟩)
      · by_cases hm : Marks H names ids d
        · obtain ⟨n, i, h⟩ := hm
          exact Or.inl (List.mem_map.2 ⟨_, h, rfl⟩)
        · refine Or.inr ⟨h, fun x hx e => hm ?_⟩
          obtain ⟨⟨d', n, i⟩, hr, rfl⟩ := List.mem_map.1 hx
          have : d' = d := e
          subst this
          exact ⟨n, i, hr⟩
  · intro a ha b hb e
    obtain ⟨_, _, rfl⟩ := List.mem_map.1 ha
    obtain ⟨_, _, rfl⟩ := List.mem_map.1 hb
    dsimp only at e ⊢
    rw [e]

theorem links_unmarked {H : Bytes → Bytes} {names : List (List Bytes)} {ids : List Bytes} {t : List (Bytes × Bytes)} (d : Bytes) (hm : ¬ Marks H names ids d)
    (i : Bytes) : (d, i) ∈ insertIgnore id t ((nameRows H names ids).map (fun r => (r.1, r.2.2))) ↔ (d, i) ∈ t := by
  constructor
  · intro h
    rcases mem_insertIgnore id _ t _ h with h | ⟨h, _⟩
    · exact h
    · obtain ⟨⟨d', n, i'⟩, hr, he⟩ := List.mem_map.1 h
      cases he
      exact absurd ⟨n, _, hr⟩ hm
  · intro h
    obtain ⟨new, h1, _⟩ := insertIgnore_prefix id ((nameRows H names ids).map (fun r => (r.1, r.2.2))) t
    rw [h1]
    exact List.mem_append_left _ h

theorem insert_inv {H : Bytes → Bytes} {db : DB} (hi : Inv db) {names : List (List Bytes)} {ids : List Bytes} {ps : List (Option Bytes)} {es : List Nat}
    {pls : List Bytes} {st : List (DB → DB)} (h : insertSteps H names ids ps es pls = some st) (k : Nat)
    (hf : ∀ i ∈ ids, ¬ Stored db i → (∀ c ∈ db.certs, c.parent ≠ i) ∧ ∀ d, (d, i) ∈ db.domainCerts → 2 ≤ k ∧ Marks H names ids d) :
    Inv (runSteps (st.take k) db) := by
  rcases insertSteps_cases h with ⟨_, rfl⟩ | ⟨rows, h1, rfl⟩
  · simpa [runSteps] using hi
  · have hnew : ∀ c ∈ rows, (∀ y ∈ db.certs, y.id ≠ c.id) → ¬ Stored db c.id := fun c _ h ⟨y, hy, he⟩ => h y hy he
    have hkc : KeyUnique Cert.id (insertIgnore Cert.id db.certs rows) := insertIgnore_nodup Cert.id rows db.certs hi.keys.certs
    have hkd : KeyUnique Prod.fst (replaceInto Prod.fst db.dirty ((nameRows H names ids).map (fun r => (r.1, false)))) :=
      replaceInto_nodup Prod.fst _ db.dirty hi.keys.dirty
    have hclo : ∀ (d : Bytes) (links' : List (Bytes × Bytes)), (2 ≤ k → ¬ Marks H names ids d) → (∀ i, (d, i) ∈ links' ↔ (d, i) ∈ db.domainCerts) → ∀ i,
        ClosureIds db.certs db.domainCerts d i ↔ ClosureIds (insertIgnore Cert.id db.certs rows) links' d i := by
      intro d links' hm hl i
      unfold ClosureIds
      have : ∀ c, InClosure (insertIgnore Cert.id db.certs rows) links' d c ↔ InClosure db.certs db.domainCerts d c := closure_insert (by
        intro c hc hn
        obtain ⟨f1, f2⟩ := hf c.id (certRows_mem_id _ _ _ _ _ h1 c hc) (hnew c hc hn)
        exact ⟨f1, fun h => hm (f2 d h).1 (f2 d h).2⟩) hl
      simp only [this]
    match k, hclo with
    | 0, _ => exact hi
    | 1, hclo =>
      refine ⟨⟨hkc, hi.keys.policies, hi.keys.dirty⟩, hi.pol, hi.plinks, cons_of hi.cons rfl fun d hd => ⟨hd, ?_, fun _ => Iff.rfl⟩⟩
      exact hclo d _ (by omega) (fun _ => Iff.rfl)
    | 2, hclo =>
      refine ⟨⟨hkc, hi.keys.policies, hkd⟩, hi.pol, hi.plinks, cons_of hi.cons rfl fun d hd => ?_⟩
      have hd' := fun h => hd ((mem_dirty_marks d).2 h)
      exact ⟨fun h => hd' (Or.inr h), hclo d _ (fun _ h => hd' (Or.inl h)) (fun _ => Iff.rfl), fun _ => Iff.rfl⟩
    | 3, hclo =>
      refine ⟨⟨hkc, hi.keys.policies, hkd⟩, hi.pol, hi.plinks, cons_of hi.cons rfl fun d hd => ?_⟩
      have hd' := fun h => hd ((mem_dirty_marks d).2 h)
      exact ⟨fun h => hd' (Or.inr h), hclo d _ (fun _ h => hd' (Or.inl h)) (fun _ => Iff.rfl), fun _ => Iff.rfl⟩
    | k + 4, hclo =>
      have : ∀ (a b c d : DB → DB), [a, b, c, d].take (k + 4) = [a, b, c, d] := by intros; simp
      rw [this]
      refine ⟨⟨hkc, hi.keys.policies, hkd⟩, hi.pol, hi.plinks, cons_of hi.cons rfl fun d hd => ?_⟩
      have hd' := fun h => hd ((mem_dirty_marks d).2 h)
      exact ⟨fun h => hd' (Or.inr h), hclo d _ (fun _ h => hd' (Or.inl h)) (links_unmarked d (fun h => hd' (Or.inl h))), fun _ => Iff.rfl⟩

theorem prune_inv {db db' : DB} (hi : Inv db) {fuel cut : Nat} (h : pruneCerts fuel db cut = some db') : Inv db' ∨ ¬ KeyUnique Prod.fst db'.dirty := by
  obtain ⟨h1, h2, h3, h4, h5, h6, h7, h8⟩ := C21_prune_result fuel db db' cut h
  by_cases hk : KeyUnique Prod.fst db'.dirty
  · left
    refine ⟨⟨(h1.map Cert.id).nodup hi.keys.certs, by rw [h6]; exact hi.keys.policies, hk⟩, by rw [h6]; exact hi.pol, by rw [h6, h7]; exact hi.plinks,
      cons_of hi.cons h8 fun d hd => ?_⟩
    have hloses : ¬ LosesCert db cut d := fun hl => hd ((h3 (d, false)).2 (Or.inl ⟨hl, rfl⟩))
    refine ⟨fun h => hd ((h3 (d, false)).2 (Or.inr ⟨h, hloses⟩)), fun i => ?_, fun i => by rw [h6, h7]⟩
    have key : ∀ c, InClosure db.certs db.domainCerts d c ↔ InClosure db'.certs db'.domainCerts d c := by
      intro c
      rw [h5]
      constructor
      · intro hc
        induction hc with
        | link c hc hl => exact .link c ((h2 c).2 ⟨hc, fun he => hloses ⟨c.id, hl, he⟩⟩) hl
        | parent c p _ hp he ih =>
          refine .parent c p ih ((h2 p).2 ⟨hp, fun hx => ?_⟩) he
          rw [he] at hx
          exact ((h2 c).1 ih.mem).2 (.child c ((h2 c).1 ih.mem).1 hx)
      · intro hc
        induction hc with
        | link c hc hl => exact .link c ((h2 c).1 hc).1 hl
        | parent c p _ hp he ih => exact .parent c p ih ((h2 p).1 hp).1 he
    unfold ClosureIds
    simp only [key]
  · exact Or.inr hk

theorem prune_dirty_keys {db db' : DB} {fuel cut : Nat} (hk : KeyUnique Prod.fst db.dirty) (h : pruneCerts fuel db cut = some db') :
    KeyUnique Prod.fst db'.dirty := by
  unfold pruneCerts at h
  dsimp only at h
  split at h
  · cases h
  · cases h
    exact replaceInto_nodup Prod.fst _ _ hk

theorem coalesce_inv {db db' : DB} (hi : Inv db) {fuel chunk n : Nat} (h1 : db.certs.length < fuel) (h2 : db.policies.length < fuel) (h3 : 0 < chunk)
    (h4 : db.dirty.length < n) (h : recomputeDirty fuel chunk n db = some db') : Inv db' ∧ ∀ d, (d, false) ∉ db'.dirty := by
  obtain ⟨x, hx, c1, c2, _, c4, c5, c6, c7, c8⟩ := C22_coalesced_payload db hi.keys fuel chunk n h1 h2 h3 h4
  rw [h] at hx
  cases hx
  have hnone : ∀ d, (d, false) ∉ db'.dirty := by
    intro d hd
    rw [c4, List.mem_map] at hd
    obtain ⟨_, _, he⟩ := hd
    cases he
  refine ⟨⟨⟨by rw [c5]; exact hi.keys.certs, by rw [c7]; exact hi.keys.policies, ?_⟩, by rw [c7]; exact hi.pol, by rw [c7, c8]; exact hi.plinks, ?_⟩, hnone⟩
  · unfold KeyUnique
    rw [c4, List.map_map]
    exact hi.keys.dirty
  · intro r _
    have hg : GoodRow db' r ↔ GoodRow db r := by
      unfold GoodRow IsPayload
      rw [c5, c6, c7, c8]
    rw [hg]
    by_cases hd : (r.domain, false) ∈ db.dirty
    · rw [c1 r hd]
      exact and_assoc.symm
    · rw [c2 r hd]
      exact hi.cons r hd

theorem closure_nil_parent {ps : List Cert} {links : List (Bytes × Bytes)} {d : Bytes} (hp : ∀ c ∈ ps, c.parent = [] ∧ c.id ≠ []) (i : Bytes) :
    ClosureIds ps links d i ↔ (∃ c ∈ ps, c.id = i) ∧ (d, i) ∈ links := by
  constructor
  · rintro ⟨c, h, rfl⟩
    refine ⟨⟨c, h.mem, rfl⟩, ?_⟩
    cases h with
    | link _ _ hl => exact hl
    | parent c' _ h' hp' he =>
      rw [(hp c' h'.mem).1] at he
      exact absurd he (hp c hp').2
  · rintro ⟨⟨c, hc, rfl⟩, hl⟩
    exact ⟨c, .link c hc hl, rfl⟩

theorem mem_replaceInto_sub {κ : Type} [BEq κ] [LawfulBEq κ] (key : α → κ) : ∀ (rows t : List α) (x : α), x ∈ replaceInto key t rows → x ∈ t ∨ x ∈ rows
  | [], t, x, h => Or.inl h
  | r :: rows, t, x, h => by
    have unf : replaceInto key t (r :: rows) = replaceInto key (t.filter (fun x => !(key x == key r)) ++ [r]) rows := rfl
    rw [unf] at h
    rcases mem_replaceInto_sub key rows _ x h with h | h
    · rcases List.mem_append.1 h with h | h
      · exact Or.inl (List.mem_filter.1 h).1
      · rw [List.mem_singleton] at h
        subst h
        exact Or.inr List.mem_cons_self
    · exact Or.inr (List.mem_cons_of_mem _ h)

theorem replaceInto_keys {κ : Type} [BEq κ] [LawfulBEq κ] (key : α → κ) : ∀ (rows t : List α) (k : κ),
    (∃ x ∈ replaceInto key t rows, key x = k) ↔ (∃ x ∈ t, key x = k) ∨ ∃ x ∈ rows, key x = k
  | [], t, k => by simp [replaceInto]
  | r :: rows, t, k => by
    have unf : replaceInto key t (r :: rows) = replaceInto key (t.filter (fun x => !(key x == key r)) ++ [r]) rows := rfl
    rw [unf, replaceInto_keys key rows _ k]
    constructor
    · rintro (⟨x, hx, e⟩ | ⟨x, hx, e⟩)
      · rcases List.mem_append.1 hx with hx | hx
        · exact Or.inl ⟨x, (List.mem_filter.1 hx).1, e⟩
        · rw [List.mem_singleton] at hx
          subst hx
          exact Or.inr ⟨x, List.mem_cons_self, e⟩
      · exact Or.inr ⟨x, List.mem_cons_of_mem _ hx, e⟩
    · rintro (⟨x, hx, e⟩ | ⟨x, hx, e⟩)
      · left
        by_cases hr : key x = key r
        · exact ⟨r, by simp, by rw [← hr]; exact e⟩
        · exact ⟨x, List.mem_append_left _ (List.mem_filter.2 ⟨hx, by simpa using hr⟩), e⟩
      · rcases List.mem_cons.1 hx with rfl | hx
        · exact Or.inl ⟨x, by simp, e⟩
        · exact Or.inr ⟨x, hx, e⟩

theorem policies_inv {H : Bytes → Bytes} {db : DB} (hi : Inv db) {subjects ids payloads : List Bytes} {st : List (DB → DB)} (hne : ∀ i ∈ ids, i ≠ [])
    (hlen : subjects.length = ids.length) (h : insertPolicySteps H subjects ids payloads = some st) (k : Nat) : Inv (runSteps (st.take k) db) := by
  unfold insertPolicySteps at h
  by_cases h0 : ids.length = 0
  · rw [if_pos h0] at h
    cases h
    simpa [runSteps] using hi
  · rw [if_neg h0] at h
    cases hr : certRows ids (List.replicate ids.length none) (List.replicate ids.length year3000) payloads with
    | none => rw [hr] at h; cases h
    | some rows =>
      rw [hr] at h
      cases h
      obtain ⟨hl, hg⟩ := certRows_getElem _ _ _ _ _ hr
      have hrow : ∀ c ∈ rows, c.parent = [] ∧ c.id ≠ [] := by
        intro c hc
        obtain ⟨j, hj, rfl⟩ := List.mem_iff_getElem.1 hc
        obtain ⟨g1, ⟨p, g2, g3⟩, _⟩ := hg j rows[j] (List.getElem?_eq_getElem hj)
        refine ⟨?_, hne _ (List.mem_of_getElem? g1)⟩
        have := List.eq_of_mem_replicate (List.mem_of_getElem? g2)
        rw [this] at g3
        simpa using g3
      have hids : ∀ i, (∃ x ∈ rows, x.id = i) ↔ i ∈ ids := by
        intro i
        constructor
        · rintro ⟨x, hx, rfl⟩
          exact certRows_mem_id _ _ _ _ _ hr x hx
        · intro h
          obtain ⟨j, hj, rfl⟩ := List.mem_iff_getElem.1 h
          refine ⟨rows[j], List.getElem_mem _, ?_⟩
          have := (hg j rows[j] (List.getElem?_eq_getElem (by omega))).1
          rw [List.getElem?_eq_getElem hj] at this
          exact (Option.some.inj this).symm
      have hpol : ∀ c ∈ replaceInto Cert.id db.policies rows, c.parent = [] ∧ c.id ≠ [] := by
        intro c hc
        rcases mem_replaceInto_sub Cert.id rows _ c hc with h | h
        · exact hi.pol c h
        · exact hrow c h
      have hkp : KeyUnique Cert.id (replaceInto Cert.id db.policies rows) := replaceInto_nodup Cert.id _ _ hi.keys.policies
      have hkd : KeyUnique Prod.fst (replaceInto Prod.fst db.dirty (subjects.map (fun n => (H n, false)))) := replaceInto_nodup Prod.fst _ _ hi.keys.dirty
      have hpl : ∀ d i, (d, i) ∈ db.domainPolicies → ∃ c ∈ replaceInto Cert.id db.policies rows, c.id = i := by
        intro d i h
        rw [replaceInto_keys]
        exact Or.inl (hi.plinks d i h)
      have hdirty : ∀ d, (d, false) ∉ replaceInto Prod.fst db.dirty (subjects.map (fun n => (H n, false))) → (d, false) ∉ db.dirty ∧ ∀ n ∈ subjects, H n ≠ d := by
        intro d hd
        rw [mem_replaceInto_iff Prod.fst] at hd
        · have hno : ∀ n ∈ subjects, H n ≠ d := fun n hn e => hd (Or.inl (List.mem_map.2 ⟨n, hn, by rw [e]⟩))
          refine ⟨fun h => hd (Or.inr ⟨h, ?_⟩), hno⟩
          intro x hx e
          obtain ⟨n, hn, rfl⟩ := List.mem_map.1 hx
          exact hno n hn e
        · intro a ha b hb e
          obtain ⟨_, _, rfl⟩ := List.mem_map.1 ha
          obtain ⟨_, _, rfl⟩ := List.mem_map.1 hb
          dsimp only at e ⊢
          rw [e]
      have hclo : ∀ (d : Bytes) (links' : List (Bytes × Bytes)), (∀ i, (d, i) ∈ links' ↔ (d, i) ∈ db.domainPolicies) → ∀ i,
          ClosureIds db.policies db.domainPolicies d i ↔ ClosureIds (replaceInto Cert.id db.policies rows) links' d i := by
        intro d links' hl' i
        rw [closure_nil_parent hi.pol, closure_nil_parent hpol, hl' i]
        constructor
        · rintro ⟨_, h⟩
          exact ⟨hpl d i h, h⟩
        · rintro ⟨_, h⟩
          exact ⟨hi.plinks d i h, h⟩
      match k with
      | 0 => exact hi
      | 1 =>
        exact ⟨⟨hi.keys.certs, hi.keys.policies, hkd⟩, hi.pol, hi.plinks, cons_of hi.cons rfl fun d hd => ⟨(hdirty d hd).1, fun _ => Iff.rfl, fun _ => Iff.rfl⟩⟩
      | 2 =>
        exact ⟨⟨hi.keys.certs, hi.keys.policies, hkd⟩, hi.pol, hi.plinks, cons_of hi.cons rfl fun d hd => ⟨(hdirty d hd).1, fun _ => Iff.rfl, fun _ => Iff.rfl⟩⟩
      | 3 =>
        exact ⟨⟨hi.keys.certs, hkp, hkd⟩, hpol, hpl, cons_of hi.cons rfl fun d hd => ⟨(hdirty d hd).1, fun _ => Iff.rfl, hclo d _ (fun _ => Iff.rfl)⟩⟩
      | k + 4 =>
        have : ∀ (a b c d : DB → DB), [a, b, c, d].take (k + 4) = [a, b, c, d] := by intros; simp
        rw [this]
        refine ⟨⟨hi.keys.certs, hkp, hkd⟩, hpol, ?_, cons_of hi.cons rfl fun d hd => ⟨(hdirty d hd).1, fun _ => Iff.rfl, hclo d _ ?_⟩⟩
        · intro d i h
          rcases mem_insertIgnore id _ db.domainPolicies _ h with h | ⟨h, _⟩
          · exact hpl d i h
          · show ∃ c ∈ replaceInto Cert.id db.policies rows, c.id = i
            rw [replaceInto_keys]
            exact Or.inr ((hids i).2 (List.of_mem_zip h).2)
        · intro i
          constructor
          · intro h
            rcases mem_insertIgnore id _ db.domainPolicies _ h with h | ⟨h, _⟩
            · exact h
            · obtain ⟨n, hn, he⟩ := List.mem_map.1 (List.of_mem_zip h).1
              exact absurd he ((hdirty d hd).2 n hn)
          · intro h
            obtain ⟨new, h1, _⟩ := insertIgnore_prefix id ((subjects.map H).zip ids) db.domainPolicies
            show (d, i) ∈ insertIgnore id db.domainPolicies ((subjects.map H).zip ids)
            rw [h1]
            exact List.mem_append_left _ h

theorem select_zip : ∀ (m : List Bool) (x : List α) (y : List β), x.length = y.length → select m (x.zip y) = (select m x).zip (select m y)
  | [], x, y, _ => by simp [select]
  | c :: m, [], y, _ => by simp [select]
  | c :: m, x0 :: x, [], h => by simp at h
  | c :: m, x0 :: x, y0 :: y, h => by
    have := select_zip m x y (by simpa using h)
    cases c <;> simp [select] at this ⊢ <;> exact this

theorem select_subset (m : List Bool) (l : List α) (x : α) (h : x ∈ select m l) : x ∈ l := by
  unfold select at h
  obtain ⟨p, hp, rfl⟩ := List.mem_map.1 h
  exact (List.of_mem_zip (List.mem_filter.1 hp).1).2

theorem keep_unseen_marks {H : Bytes → Bytes} {db : DB} {b : Batch} (ha : b.Aligned) {i d : Bytes} (hn : ¬ Stored db i) {ns : List Bytes}
    (hm : (ns, i) ∈ b.names.zip b.ids) {n : Bytes} (hns : n ∈ ns) (hd : H n = d) :
    Marks H (select (mask db b) b.names) (select (mask db b) b.ids) d := by
  have hml := mask_length db b
  refine ⟨n, i, ?_⟩
  unfold nameRows
  rw [← select_zip _ _ _ ha.1, List.mem_flatMap]
  refine ⟨(ns, i), ?_, List.mem_map.2 ⟨n, hns, by rw [hd]⟩⟩
  obtain ⟨j, hj, he⟩ := List.mem_iff_getElem.1 hm
  have hj2 : (b.names.zip b.ids)[j]? = some (ns, i) := by rw [List.getElem?_eq_getElem hj, he]
  have hid := (List.getElem?_zip_eq_some.1 hj2).2
  have hjl : j < (mask db b).length := by
    by_contra hc
    rw [List.getElem?_eq_none (by omega)] at hid
    cases hid
  refine select_false_mem (mask db b) _ j _ ?_ hj2
  rw [List.getElem?_eq_getElem hjl]
  cases hb : (mask db b)[j] with
  | false => rfl
  | true => exact absurd (mask_true (by rw [List.getElem?_eq_getElem hjl, hb]) hid) hn

theorem hist_inv {H : Bytes → Bytes} {db : DB} (h : Hist H db) : Inv db := by
  induction h with
  | empty =>
    refine ⟨⟨List.nodup_nil, List.nodup_nil, List.nodup_nil⟩, by simp [emptyDB], by simp [emptyDB], ?_⟩
    intro r _
    constructor
    · intro h
      cases h
    · rintro ⟨⟨⟨i1, _, h1, e1⟩, ⟨i2, _, h2, e2⟩⟩, hne⟩
      have no : ∀ (d : Bytes) (c : Cert), ¬ InClosure [] [] d c := fun d c h => by
        have := h.mem
        cases this
      have n1 : i1 = [] := List.eq_nil_iff_forall_not_mem.2 (fun i hi => by
        obtain ⟨c, hc, _⟩ := (h1 i).1 hi
        exact no _ c hc)
      have n2 : i2 = [] := List.eq_nil_iff_forall_not_mem.2 (fun i hi => by
        obtain ⟨c, hc, _⟩ := (h2 i).1 hi
        exact no _ c hc)
      rw [n1] at e1
      rw [n2] at e2
      simp at e1 e2
      rw [e1, e2] at hne
      simp at hne
  | keep db db' b _ ha hf hu ih =>
    unfold updateWithKeepExisting at hu
    rw [keepExisting_spec H db b ha, Option.map_eq_some_iff] at hu
    obtain ⟨st, hst, rfl⟩ := hu
    have := insert_inv ih hst (st.length + 2) (by
      intro i hi hn
      obtain ⟨f1, f2⟩ := hf i (select_subset _ _ _ hi) hn
      refine ⟨f1, fun d hd => ⟨by omega, ?_⟩⟩
      obtain ⟨ns, h1, n, h2, h3⟩ := f2 d hd
      exact keep_unseen_marks ha hn h1 h2 h3)
    rwa [List.take_of_length_le (by omega)] at this
  | overwrite db db' b _ ha hf hu ih =>
    unfold updateWithOverwrite at hu
    rw [Option.map_eq_some_iff] at hu
    obtain ⟨st, hst, rfl⟩ := hu
    have := insert_inv ih hst (st.length + 2) (by
      intro i hi hn
      obtain ⟨f1, f2⟩ := hf i hi hn
      refine ⟨f1, fun d hd => ⟨by omega, ?_⟩⟩
      obtain ⟨ns, h1, n, h2, h3⟩ := f2 d hd
      refine ⟨n, i, ?_⟩
      unfold nameRows
      rw [List.mem_flatMap]
      exact ⟨(ns, i), h1, List.mem_map.2 ⟨n, h2, by rw [h3]⟩⟩)
    rwa [List.take_of_length_le (by omega)] at this
  | crash db b st k _ ha hf hst ih =>
    rw [keepExisting_spec H db b ha] at hst
    exact insert_inv ih hst k (fun i hi hn =>
      ⟨(hf i (select_subset _ _ _ hi) hn).1, fun d hd => absurd hd ((hf i (select_subset _ _ _ hi) hn).2 d)⟩)
  | policies db subjects ids payloads st k _ hne hlen hst ih => exact policies_inv ih hne hlen hst k
  | prune db db' fuel cut _ hp ih =>
    rcases prune_inv ih hp with h | h
    · exact h
    · exact absurd (prune_dirty_keys ih.keys.dirty hp) h
  | pruneCut db db' fuel cut _ hp ih =>
    obtain ⟨_, _, h3, _⟩ := C21_prune_result fuel db db' cut hp
    have hk := prune_dirty_keys ih.keys.dirty hp
    refine ⟨⟨ih.keys.certs, ih.keys.policies, hk⟩, ih.pol, ih.plinks, cons_of ih.cons rfl fun d hd =>
      ⟨fun h => hd ?_, fun _ => Iff.rfl, fun _ => Iff.rfl⟩⟩
    by_cases hl : LosesCert db cut d
    · exact (h3 (d, false)).2 (Or.inl ⟨hl, rfl⟩)
    · exact (h3 (d, false)).2 (Or.inr ⟨h, hl⟩)
  | coalesce db db' fuel chunk n _ h1 h2 h3 h4 h ih => exact (coalesce_inv ih h1 h2 h3 h4 h).1
  | cleanup db _ hw ih =>
    exact ⟨⟨ih.keys.certs, ih.keys.policies, List.nodup_nil⟩, ih.pol, ih.plinks, cons_of ih.cons rfl fun d _ => ⟨hw d, fun _ => Iff.rfl, fun _ => Iff.rfl⟩⟩

/-- C70 (partial: nothing stored refers to a certificate before it is stored, see `Fresh`, `NeverSeen`): after every history the payload of every domain that is
not waiting is the right one for the certificates and policies stored now. -/
theorem C70_payloads_match_partial {H : Bytes → Bytes} {db : DB} (h : Hist H db) (r : Payload) (hr : (r.domain, false) ∉ db.dirty) :
    r ∈ db.payloads ↔ IsAgg db.certs db.domainCerts r.domain r.certIds ∧ IsAgg db.policies db.domainPolicies r.domain r.policyIds ∧
      (r.certIds ≠ none ∨ r.policyIds ≠ none) :=
  ((hist_inv h).cons r hr).trans and_assoc

/-- C70 (partial, as above): coalescing after any history makes all payloads right. -/
theorem C70_coalesced_all_right_partial {H : Bytes → Bytes} {db db' : DB} (h : Hist H db) {fuel chunk n : Nat} (h1 : db.certs.length < fuel)
    (h2 : db.policies.length < fuel) (h3 : 0 < chunk) (h4 : db.dirty.length < n) (hc : recomputeDirty fuel chunk n db = some db') (r : Payload) :
    r ∈ db'.payloads ↔ IsAgg db'.certs db'.domainCerts r.domain r.certIds ∧ IsAgg db'.policies db'.domainPolicies r.domain r.policyIds ∧
      (r.certIds ≠ none ∨ r.policyIds ≠ none) :=
  C70_payloads_match_partial (.coalesce db db' fuel chunk n h h1 h2 h3 h4 hc) r ((coalesce_inv (hist_inv h) h1 h2 h3 h4 hc).2 r.domain)

/-- A leaf of the domain `[1, 1]`, and its root, which expires at 5. -/
def leafBatch : Batch := ⟨[[[1, 1]], []], [[2], [1]], [some [1], none], [[20], [10]], [90, 5]⟩

/-- The same certificate again, now as part of another chain (chain certificates come without names), under a root that is valid until 95. -/
def chainBatch : Batch := ⟨[[], []], [[2], [9]], [some [9], none], [[20], [90]], [90, 95]⟩

def leafDB : DB := ⟨[⟨[2], [1], 90, [20]⟩, ⟨[1], [], 5, [10]⟩], [([1, 1], [1, 1])], [([1, 1], [2])], [], [], [], [([1, 1], false)]⟩

def prunedDB : DB := { leafDB with certs := [] }

theorem leafDB_insert : updateWithKeepExisting id emptyDB leafBatch.names leafBatch.ids leafBatch.parents leafBatch.raws leafBatch.exps = some leafDB := by
  have hm : mask emptyDB leafBatch = [false, false] := by
    unfold mask
    rw [C17_presence_partial _ _ (Or.inl (by decide))]
    decide
  unfold updateWithKeepExisting
  rw [keepExisting_spec id emptyDB leafBatch ⟨rfl, rfl, rfl, rfl⟩, hm]
  rfl

theorem leafDB_prune : pruneCerts 5 leafDB 10 = some prunedDB := by decide

/-- C70 is violated without that condition: a certificate pruned because its root expired stays linked to its domain; when it comes back in
another chain it is stored again, but the domain does not become dirty. After coalescing the domain still has no payload, although it has a link to a stored
certificate that is not expired. -/
theorem C70_reinserted_violated : ∃ db3 db4 db5 : DB,
    updateWithKeepExisting id emptyDB leafBatch.names leafBatch.ids leafBatch.parents leafBatch.raws leafBatch.exps = some leafDB ∧
    pruneCerts 5 leafDB 10 = some prunedDB ∧ recomputeDirty 9 1024 9 prunedDB = some db3 ∧
    updateWithKeepExisting id (cleanupDirty db3) chainBatch.names chainBatch.ids chainBatch.parents chainBatch.raws chainBatch.exps = some db4 ∧
    recomputeDirty 9 1024 9 db4 = some db5 ∧ (⟨[2], [9], 90, [20]⟩ : Cert) ∈ db5.certs ∧ ([1, 1], [2]) ∈ db5.domainCerts ∧
    ∀ r ∈ db5.payloads, r.domain ≠ [1, 1] := by
  obtain ⟨db3, h3, p1, _, p3, p4, p5, p6, p7, p8⟩ := C22_coalesced_payload prunedDB
    ⟨List.nodup_nil, List.nodup_nil, by unfold KeyUnique; decide⟩ 9 1024 9 (by decide) (by decide) (by decide) (by decide)
  have hno : ∀ r ∈ db3.payloads, r.domain ≠ [1, 1] := by
    intro r hr he
    have := (p1 r (by rw [he]; decide)).1 hr
    obtain ⟨⟨i1, _, h1, e1⟩, ⟨i2, _, h2, e2⟩, hne⟩ := this
    have n1 : i1 = [] := List.eq_nil_iff_forall_not_mem.2 (fun i hi => by
      obtain ⟨c, hc, _⟩ := (h1 i).1 hi
      have := hc.mem
      cases this)
    have n2 : i2 = [] := List.eq_nil_iff_forall_not_mem.2 (fun i hi => by
      obtain ⟨c, hc, _⟩ := (h2 i).1 hi
      have := hc.mem
      cases this)
    rw [n1] at e1
    rw [n2] at e2
    simp at e1 e2
    rw [e1, e2] at hne
    simp at hne
  have hc3 : (cleanupDirty db3).certs = [] := p5
  have hm : mask (cleanupDirty db3) chainBatch = [false, false] := by
    unfold mask
    rw [C17_presence_partial _ _ (Or.inl (by decide)), hc3]
    decide
  have h4 : updateWithKeepExisting id (cleanupDirty db3) chainBatch.names chainBatch.ids chainBatch.parents chainBatch.raws chainBatch.exps =
      some { cleanupDirty db3 with certs := [⟨[2], [9], 90, [20]⟩, ⟨[9], [], 95, [90]⟩] } := by
    unfold updateWithKeepExisting
    rw [keepExisting_spec id _ chainBatch ⟨rfl, rfl, rfl, rfl⟩, hm]
    show some { cleanupDirty db3 with certs := insertIgnore Cert.id (cleanupDirty db3).certs [⟨[2], [9], 90, [20]⟩, ⟨[9], [], 95, [90]⟩] } = _
    rw [hc3]
    rfl
  have hpol : db3.policies = [] := p7
  obtain ⟨db5, h5, _, q2, _, _, q5, q6, _⟩ := C22_coalesced_payload { cleanupDirty db3 with certs := [⟨[2], [9], 90, [20]⟩, ⟨[9], [], 95, [90]⟩] }
    ⟨by show (([⟨[2], [9], 90, [20]⟩, ⟨[9], [], 95, [90]⟩] : List Cert).map Cert.id).Nodup; decide, by show (db3.policies.map Cert.id).Nodup; rw [hpol]; exact List.nodup_nil, List.nodup_nil⟩ 9 1024 9 (by show 2 < 9; decide)
    (by show db3.policies.length < 9; rw [hpol]; decide) (by decide) (by show 0 < 9; decide)
  refine ⟨db3, _, db5, leafDB_insert, leafDB_prune, h3, h4, h5, by rw [q5]; exact List.mem_cons_self, ?_, ?_⟩
  · rw [q6]
    show ([1, 1], [2]) ∈ db3.domainCerts
    rw [p6]
    decide
  · intro r hr he
    have := (q2 r (by intro h; cases h)).1 hr
    exact hno r this he

/-- A history with an insertion, a pruning and a coalescing. -/
example : ∃ db, Hist id db ∧ ([1, 1], [2]) ∈ db.domainCerts ∧ ([1, 1], false) ∉ db.dirty := by
  have h1 : Hist id leafDB := .keep emptyDB leafDB leafBatch .empty ⟨rfl, rfl, rfl, rfl⟩ (by
    intro i _ _
    exact ⟨(by rintro c hc; cases hc), (by rintro d hd; cases hd)⟩) leafDB_insert
  have h2 : Hist id prunedDB := .prune leafDB prunedDB 5 10 h1 leafDB_prune
  obtain ⟨db3, h3, _, _, _, p4, _, p6, _, _⟩ := C22_coalesced_payload prunedDB
    ⟨List.nodup_nil, List.nodup_nil, by unfold KeyUnique; decide⟩ 9 1024 9 (by decide) (by decide) (by decide) (by decide)
  refine ⟨db3, .coalesce prunedDB db3 9 1024 9 h2 (by decide) (by decide) (by decide) (by decide) h3, by rw [p6]; decide, ?_⟩
  rw [p4]
  decide

end Fpki.Db
