import Verif.Lemmas.EndToEnd

/-!
# Lemmas for C91: what holds after every step
-/
namespace Fpki.E2E
open Fpki.Db Fpki.Smt Fpki.Dirty Fpki.Responder Fpki.Ids
open Fpki.Chains (X509)

/-! ## Sizes, payloads and dirty domains -/

/-- All IDs have 32 bytes. -/
structure Len32 (db : DB) : Prop where
  certs : ∀ c ∈ db.certs, c.id.length = 32
  policies : ∀ c ∈ db.policies, c.id.length = 32
  links : ∀ l ∈ db.domainCerts, l.1.length = 32
  dirty : ∀ r ∈ db.dirty, r.1.length = 32

/-- `d` is in the dirty table, waiting or not. -/
def IsDirty (db : DB) (d : Bytes) : Prop := d ∈ db.dirty.map Prod.fst

theorem isDirty_iff {db : DB} {d : Bytes} : IsDirty db d ↔ ∃ r ∈ db.dirty, r.1 = d := List.mem_map

/-- A step that does not touch the payloads and only adds dirty domains. -/
structure Frame (db db' : DB) : Prop where
  len : Len32 db → Len32 db'
  payloads : db'.payloads = db.payloads
  dirty : ∀ d, IsDirty db d → IsDirty db' d

theorem Frame.refl (db : DB) : Frame db db := ⟨id, rfl, fun _ h => h⟩

theorem marks_len {H : Bytes → Bytes} (hH : ∀ x, (H x).length = 32) {names : List (List Bytes)} {ids : List Bytes} {r : Bytes × Bytes × Bytes}
    (h : r ∈ nameRows H names ids) : r.1.length = 32 := by
  unfold nameRows at h
  obtain ⟨p, _, h⟩ := List.mem_flatMap.1 h
  obtain ⟨n, _, rfl⟩ := List.mem_map.1 h
  exact hH n

theorem insert_frame {H : Bytes → Bytes} (hH : ∀ x, (H x).length = 32) {db : DB} {names : List (List Bytes)} {ids : List Bytes} {ps : List (Option Bytes)}
    {es : List Nat} {pls : List Bytes} {st : List (DB → DB)} (hids : ∀ i ∈ ids, i.length = 32) (h : insertSteps H names ids ps es pls = some st) (k : Nat) :
    Frame db (runSteps (st.take k) db) := by
  rcases insertSteps_cases h with ⟨_, rfl⟩ | ⟨rows, h1, rfl⟩
  · simpa [runSteps] using Frame.refl db
  · have hc : Len32 db → ∀ c ∈ insertIgnore Cert.id db.certs rows, c.id.length = 32 := by
      intro hl c hc
      rcases mem_insertIgnore Cert.id rows db.certs c hc with h | ⟨h, _⟩
      · exact hl.certs c h
      · exact hids _ (certRows_mem_id _ _ _ _ _ h1 c h)
    have hd : Len32 db → ∀ r ∈ replaceInto Prod.fst db.dirty ((nameRows H names ids).map (fun r => (r.1, false))), r.1.length = 32 := by
      intro hl r hr
      rcases mem_replaceInto_sub Prod.fst _ _ r hr with h | h
      · exact hl.dirty r h
      · obtain ⟨x, hx, rfl⟩ := List.mem_map.1 h
        exact marks_len hH hx
    have hk : Len32 db → ∀ l ∈ insertIgnore id db.domainCerts ((nameRows H names ids).map (fun r => (r.1, r.2.2))), l.1.length = 32 := by
      intro hl r hr
      rcases mem_insertIgnore id _ _ r hr with h | ⟨h, _⟩
      · exact hl.links r h
      · obtain ⟨x, hx, rfl⟩ := List.mem_map.1 h
        exact marks_len hH hx
    have hm : ∀ d, IsDirty db d → d ∈ (replaceInto Prod.fst db.dirty ((nameRows H names ids).map (fun r => (r.1, false)))).map Prod.fst := by
      intro d h
      rw [List.mem_map, replaceInto_keys]
      exact Or.inl (isDirty_iff.1 h)
    match k with
    | 0 => exact Frame.refl db
    | 1 => exact ⟨fun hl => ⟨hc hl, hl.policies, hl.links, hl.dirty⟩, rfl, fun _ h => h⟩
    | 2 => exact ⟨fun hl => ⟨hc hl, hl.policies, hl.links, hd hl⟩, rfl, hm⟩
    | 3 => exact ⟨fun hl => ⟨hc hl, hl.policies, hl.links, hd hl⟩, rfl, hm⟩
    | k + 4 =>
      have : ∀ (a b c d : DB → DB), [a, b, c, d].take (k + 4) = [a, b, c, d] := by intros; simp
      rw [this]
      exact ⟨fun hl => ⟨hc hl, hl.policies, hk hl, hd hl⟩, rfl, hm⟩

theorem policies_frame {H : Bytes → Bytes} (hH : ∀ x, (H x).length = 32) {db : DB} {subjects ids payloads : List Bytes} {st : List (DB → DB)}
    (hids : ∀ i ∈ ids, i.length = 32) (h : insertPolicySteps H subjects ids payloads = some st) (k : Nat) : Frame db (runSteps (st.take k) db) := by
  unfold insertPolicySteps at h
  by_cases h0 : ids.length = 0
  · rw [if_pos h0] at h
    cases h
    simpa [runSteps] using Frame.refl db
  · rw [if_neg h0] at h
    cases hr : certRows ids (List.replicate ids.length none) (List.replicate ids.length year3000) payloads with
    | none => rw [hr] at h; cases h
    | some rows =>
      rw [hr] at h
      cases h
      have hc : Len32 db → ∀ c ∈ replaceInto Cert.id db.policies rows, c.id.length = 32 := by
        intro hl c hc
        rcases mem_replaceInto_sub Cert.id rows _ c hc with h | h
        · exact hl.policies c h
        · exact hids _ (certRows_mem_id _ _ _ _ _ hr c h)
      have hd : Len32 db → ∀ r ∈ replaceInto Prod.fst db.dirty (subjects.map (fun n => (H n, false))), r.1.length = 32 := by
        intro hl r hr
        rcases mem_replaceInto_sub Prod.fst _ _ r hr with h | h
        · exact hl.dirty r h
        · obtain ⟨x, hx, rfl⟩ := List.mem_map.1 h
          exact hH x
      have hm : ∀ d, IsDirty db d → d ∈ (replaceInto Prod.fst db.dirty (subjects.map (fun n => (H n, false)))).map Prod.fst := by
        intro d h
        rw [List.mem_map, replaceInto_keys]
        exact Or.inl (isDirty_iff.1 h)
      match k with
      | 0 => exact Frame.refl db
      | 1 => exact ⟨fun hl => ⟨hl.certs, hl.policies, hl.links, hd hl⟩, rfl, hm⟩
      | 2 => exact ⟨fun hl => ⟨hl.certs, hl.policies, hl.links, hd hl⟩, rfl, hm⟩
      | 3 => exact ⟨fun hl => ⟨hl.certs, hc hl, hl.links, hd hl⟩, rfl, hm⟩
      | k + 4 =>
        have : ∀ (a b c d : DB → DB), [a, b, c, d].take (k + 4) = [a, b, c, d] := by intros; simp
        rw [this]
        exact ⟨fun hl => ⟨hl.certs, hc hl, hl.links, hd hl⟩, rfl, hm⟩

theorem prune_frame {db db' : DB} {fuel cut : Nat} (h : pruneCerts fuel db cut = some db') : Frame db db' ∧ Frame db { db with dirty := db'.dirty } := by
  obtain ⟨h1, h2, h3, h4, h5, h6, h7, h8⟩ := C21_prune_result fuel db db' cut h
  have hd : Len32 db → ∀ r ∈ db'.dirty, r.1.length = 32 := by
    intro hl r hr
    rcases (h3 r).1 hr with ⟨⟨i, hi, _⟩, _⟩ | ⟨hr, _⟩
    · exact hl.links _ hi
    · exact hl.dirty r hr
  have hm : ∀ d, IsDirty db d → d ∈ db'.dirty.map Prod.fst := by
    intro d hd
    obtain ⟨r, hr, rfl⟩ := isDirty_iff.1 hd
    by_cases hl : LosesCert db cut r.1
    · exact List.mem_map.2 ⟨(r.1, false), (h3 _).2 (Or.inl ⟨hl, rfl⟩), rfl⟩
    · exact List.mem_map.2 ⟨r, (h3 _).2 (Or.inr ⟨hr, hl⟩), rfl⟩
  exact ⟨⟨fun hl => ⟨fun c hc => hl.certs c (h1.subset hc), by rw [h6]; exact hl.policies, by rw [h5]; exact hl.links, hd hl⟩, h8, hm⟩,
    ⟨fun hl => ⟨hl.certs, hl.policies, hl.links, hd hl⟩, rfl, hm⟩⟩

/-! ## Coalescing, one call at a time -/

theorem progress_inv {db db' : DB} (hi : Inv db) (hp : Progress db db') : Inv db' := by
  refine ⟨⟨by rw [hp.certs]; exact hi.keys.certs, by rw [hp.policies]; exact hi.keys.policies, ?_⟩, by rw [hp.policies]; exact hi.pol,
    by rw [hp.policies, hp.domainPolicies]; exact hi.plinks, ?_⟩
  · unfold KeyUnique
    rw [hp.dirtyKeys]
    exact hi.keys.dirty
  · intro r hr
    have hg : GoodRow db' r ↔ GoodRow db r := by
      unfold GoodRow IsPayload
      rw [hp.certs, hp.domainCerts, hp.policies, hp.domainPolicies]
    rw [hg, hp.payloads r]
    by_cases hd : (r.domain, false) ∈ db.dirty
    · have : Done db db' r.domain := ⟨hd, hr⟩
      simp [this]
    · have : ¬ Done db db' r.domain := fun h => hd h.1
      simp only [this, false_and, not_false_eq_true, true_and, false_or]
      exact hi.cons r hd

theorem progress_len {db db' : DB} (hl : Len32 db) (hp : Progress db db') : Len32 db' := by
  refine ⟨by rw [hp.certs]; exact hl.certs, by rw [hp.policies]; exact hl.policies, by rw [hp.domainCerts]; exact hl.links, ?_⟩
  intro r hr
  have h1 : r.1 ∈ db'.dirty.map Prod.fst := List.mem_map.2 ⟨r, hr, rfl⟩
  rw [hp.dirtyKeys] at h1
  obtain ⟨x, hx, he⟩ := List.mem_map.1 h1
  rw [← he]
  exact hl.dirty x hx

theorem not_waiting {db : DB} {d : Bytes} (h : ¬ IsDirty db d) : (d, false) ∉ db.dirty := fun hd => h (List.mem_map.2 ⟨_, hd, rfl⟩)

/-- The row of a domain that is not waiting is the only one. -/
theorem find_row {db : DB} (hi : Inv db) {d : Bytes} (hd : (d, false) ∉ db.dirty) (r : Payload) :
    db.payloads.find? (fun r => r.domain == d) = some r ↔ r.domain = d ∧ GoodRow db r := by
  constructor
  · intro h
    have h1 := List.find?_some h
    have h2 := List.mem_of_find?_eq_some h
    have h3 : r.domain = d := eq_of_beq h1
    exact ⟨h3, (hi.cons r (by rw [h3]; exact hd)).1 h2⟩
  · rintro ⟨h1, h2⟩
    have h3 := (hi.cons r (by rw [h1]; exact hd)).2 h2
    cases hf : db.payloads.find? (fun r => r.domain == d) with
    | none =>
      have := List.find?_eq_none.1 hf r h3
      simp [h1] at this
    | some r' =>
      have h4' := List.find?_some hf
      have h4 : r'.domain = d := eq_of_beq h4'
      have h5 := (hi.cons r' (by rw [h4]; exact hd)).1 (List.mem_of_find?_eq_some hf)
      rw [isPayload_unique h5.1 h2.1 (h4.trans h1.symm)]

theorem tableOf_progress {db db' : DB} (hi : Inv db) (hp : Progress db db') {d : Bytes} (hd : ¬ IsDirty db d) : tableOf db' d = tableOf db d := by
  have hd' : ¬ IsDirty db' d := by
    unfold IsDirty
    rw [hp.dirtyKeys]
    exact hd
  have hg : ∀ r, GoodRow db' r ↔ GoodRow db r := by
    intro r
    unfold GoodRow IsPayload
    rw [hp.certs, hp.domainCerts, hp.policies, hp.domainPolicies]
  have h1 := find_row hi (not_waiting hd)
  have h2 := find_row (progress_inv hi hp) (not_waiting hd')
  have : db'.payloads.find? (fun r => r.domain == d) = db.payloads.find? (fun r => r.domain == d) := by
    apply Option.ext
    intro r
    rw [h1, h2, hg]
  unfold tableOf
  rw [this]

/-! ## UpdateSMT -/

theorem ids_nil : bytesToIDs [] = [] := by rw [bytesToIDs]; simp

theorem row_ids_nil : Row.ids ⟨[], []⟩ = [] := by simp [Row.ids, ids_nil]

theorem query_value {H : Bytes → Bytes} {db : DB} {q : Bytes → Option Bytes} (hq : PayloadQuery db q) (before : Key → Option Val) (keys : List Bytes) (id : Bytes)
    (hid : id ∈ keys) : if (tableOf db id).ids = [] then expected H q keys before id = none else
      ∃ v, SortIDsAndGlue (tableOf db id).ids v ∧ expected H q keys before id = some (H v) := by
  unfold expected
  rw [if_pos hid]
  rcases hq id with ⟨h1, h2⟩ | ⟨h1, v, h2, h3⟩
  · have : tableOf db id = ⟨[], []⟩ := by unfold tableOf; rw [h1]
    rw [this, row_ids_nil, if_pos rfl, h2]
  · rw [h3]
    obtain ⟨s, hs, rfl⟩ := h2
    by_cases hn : (tableOf db id).ids = []
    · rw [if_pos hn]
      have : s = [] := List.Perm.eq_nil (by rw [← hn]; exact hs.perm)
      subst this
      simp [idsToBytes]
    · rw [if_neg hn]
      refine ⟨_, ⟨s, hs, rfl⟩, ?_⟩
      obtain ⟨x, hx⟩ := List.exists_mem_of_ne_nil _ hn
      have hne : idsToBytes s ≠ [] := by
        intro h
        have h1 := List.flatten_eq_nil_iff.1 h x (hs.perm.mem_iff.2 hx)
        have h2 := row_ids_length hx
        rw [h1] at h2
        simp at h2
      simp only [hne, if_false]

/-- What holds after every step. -/
structure SInv (H : Bytes → Bytes) (s : Sys) : Prop where
  inv : Inv s.db
  len : Len32 s.db
  tree : ∃ hist, GoodHist 256 hist ∧ s.tree = run 256 hist
  sync : ∀ id, id.length = 32 → ¬ IsDirty s.db id → SyncAt H s.tree (tableOf s.db) id

/-- UpdateSMT, when the bundles do not run into the bug of C05. -/
theorem smt_sync {H : Bytes → Bytes} {s : Sys} (hi : SInv H s) {q : Bytes → Option Bytes} {max fuel n : Nat} {bundles : List (List Bytes)} {t' : Node}
    (hmax : 0 < max) (hq : PayloadQuery s.db q) (hf : s.db.dirty.length + 32 < fuel) (hn : s.db.dirty.length < n)
    (hc : collect (dirtyPart s.db) fuel (fun _ => max) n 0 none = some bundles)
    (hr : SafeRun H 256 s.tree (bundles.map (entriesPreserveMissing q)) t') :
    (∃ hist, GoodHist 256 hist ∧ t' = run 256 hist) ∧ ∀ id, id.length = 32 → SyncAt H t' (tableOf s.db) id := by
  have hp := collect_perm hi.inv.keys.dirty hmax hf hn hc
  obtain ⟨hist, hg, ht⟩ := hi.tree
  obtain ⟨hist', h1, h2, h3⟩ := bundles_safe hr bundles hist rfl ht hg (hp.nodup_iff.2 hi.inv.keys.dirty) (by
    intro id hid
    obtain ⟨r, hr, rfl⟩ := List.mem_map.1 (hp.mem_iff.1 hid)
    have := hi.len.dirty r hr
    omega)
  refine ⟨⟨hist', h2, h1⟩, ?_⟩
  intro id hid
  unfold SyncAt
  rw [h1, h2.spec.2 id (by omega), h3 id]
  by_cases hd : id ∈ bundles.flatten
  · exact query_value hq _ _ id hd
  · have := hi.sync id hid (fun h => hd (hp.mem_iff.2 h))
    unfold SyncAt at this
    rw [ht, hg.spec.2 id (by omega)] at this
    unfold expected
    rw [if_neg hd]
    exact this

end Fpki.E2E
